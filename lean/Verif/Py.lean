/-
Shared Python scaffolding: exceptions as values and insertion-ordered dictionaries.
-/
import Mathlib.Data.List.Basic
import Mathlib.Data.List.Nodup

namespace Pytimize

/-- The Python exception classes that the modelled code can raise. `notTerminated` is not an
exception: it marks a `while` loop or recursion that did not finish within the given fuel. -/
inductive PyErr
  | valueError | arithmeticError | typeError | keyError | indexError | attributeError
  | unboundLocalError | linAlgError | recursionError | genericException | notTerminated | systemExit
  deriving DecidableEq, Repr

/-- A Python `dict`: association list in insertion order (CPython 3.7+). -/
abbrev Dict (K V : Type) := List (K × V)

namespace Dict
variable {K V : Type} [DecidableEq K]

/-- `d.get(k)` / the lookup part of `d[k]`. -/
def get? : Dict K V → K → Option V
  | [], _ => none
  | (a, v) :: d, k => if a = k then some v else get? d k

/-- `k in d`. -/
def has (d : Dict K V) (k : K) : Bool := (get? d k).isSome

/-- `list(d.keys())`. -/
def keys (d : Dict K V) : List K := d.map Prod.fst

/-- `list(d.values())`. -/
def values (d : Dict K V) : List V := d.map Prod.snd

/-- `d[k] = v`: overwrite in place if present, else append. -/
def set : Dict K V → K → V → Dict K V
  | [], k, v => [(k, v)]
  | (a, w) :: d, k, v => if a = k then (a, v) :: d else (a, w) :: set d k v

/-- `d.setdefault(k, v)` (the dictionary afterwards). -/
def setDefault (d : Dict K V) (k : K) (v : V) : Dict K V :=
  if has d k then d else set d k v

/-- `del d[k]` when `k in d` (no effect otherwise; callers guard the `KeyError`). -/
def del : Dict K V → K → Dict K V
  | [], _ => []
  | (a, w) :: d, k => if a = k then d else (a, w) :: del d k

/-- No key occurs twice: every dictionary Python can build satisfies this. -/
def WF (d : Dict K V) : Prop := d.keys.Nodup

theorem get?_eq_none_iff {d : Dict K V} {k : K} : get? d k = none ↔ k ∉ keys d := by
  induction d with
  | nil => simp [get?, keys]
  | cons p d ih =>
    obtain ⟨a, v⟩ := p
    by_cases h : a = k
    · simp [get?, keys, h]
    · simp only [get?, h, if_false, ih]
      simp [keys, Ne.symm h]

theorem has_iff {d : Dict K V} {k : K} : has d k = true ↔ k ∈ keys d := by
  unfold has
  rw [Option.isSome_iff_ne_none, Ne, get?_eq_none_iff, not_not]

theorem has_eq_false_iff {d : Dict K V} {k : K} : has d k = false ↔ k ∉ keys d := by
  rw [← has_iff]; simp

theorem mem_keys_of_get? {d : Dict K V} {k : K} {v : V} (h : get? d k = some v) : k ∈ keys d := by
  by_contra hc
  rw [← get?_eq_none_iff] at hc
  simp [hc] at h

theorem exists_get?_of_mem {d : Dict K V} {k : K} (h : k ∈ keys d) : ∃ v, get? d k = some v := by
  by_contra hc
  push Not at hc
  exact get?_eq_none_iff.mp (Option.eq_none_iff_forall_ne_some.mpr hc) h

theorem mem_of_get? {d : Dict K V} {k : K} {v : V} (h : get? d k = some v) : (k, v) ∈ d := by
  induction d with
  | nil => simp [get?] at h
  | cons p d ih =>
    obtain ⟨a, w⟩ := p
    by_cases hk : a = k
    · simp [get?, hk] at h; subst hk; simp [h]
    · simp only [get?, hk, if_false] at h; exact List.mem_cons_of_mem _ (ih h)

theorem get?_of_mem {d : Dict K V} (hd : WF d) {k : K} {v : V} (h : (k, v) ∈ d) :
    get? d k = some v := by
  induction d with
  | nil => simp at h
  | cons p d ih =>
    obtain ⟨a, w⟩ := p
    simp only [WF, keys, List.map_cons, List.nodup_cons] at hd
    rcases List.mem_cons.mp h with h | h
    · cases h; simp [get?]
    · have hak : a ≠ k := by
        rintro rfl
        exact hd.1 (List.mem_map_of_mem (f := Prod.fst) h)
      simp only [get?, hak, if_false]
      exact ih hd.2 h

theorem get?_iff_mem {d : Dict K V} (hd : WF d) {k : K} {v : V} :
    get? d k = some v ↔ (k, v) ∈ d := ⟨mem_of_get?, get?_of_mem hd⟩

@[simp] theorem get?_set (d : Dict K V) (k k' : K) (v : V) :
    get? (set d k v) k' = if k = k' then some v else get? d k' := by
  induction d with
  | nil => simp [set, get?]
  | cons p d ih =>
    obtain ⟨a, w⟩ := p
    by_cases h : a = k
    · subst h
      by_cases h' : a = k' <;> simp [set, get?, h']
    · by_cases h' : a = k'
      · subst h'
        simp [set, get?, h, Ne.symm h]
      · simp [set, get?, h, h', ih]

theorem keys_set (d : Dict K V) (k : K) (v : V) :
    keys (set d k v) = if k ∈ keys d then keys d else keys d ++ [k] := by
  induction d with
  | nil => simp [set, keys]
  | cons p d ih =>
    obtain ⟨a, w⟩ := p
    by_cases h : a = k
    · simp [set, keys, h]
    · simp only [set, h, if_false]
      simp only [keys, List.map_cons] at ih ⊢
      rw [ih]
      by_cases hk : k ∈ List.map Prod.fst d
      · simp [hk]
      · simp [hk, Ne.symm h]

theorem mem_keys_set {d : Dict K V} {k k' : K} {v : V} :
    k' ∈ keys (set d k v) ↔ k' = k ∨ k' ∈ keys d := by
  rw [keys_set]
  split
  · rename_i h
    constructor
    · exact Or.inr
    · rintro (rfl | h') <;> assumption
  · simp [or_comm]

theorem WF_set {d : Dict K V} (hd : WF d) (k : K) (v : V) : WF (set d k v) := by
  unfold WF at *
  rw [keys_set]
  split
  · exact hd
  · rename_i h
    rw [List.nodup_append]
    refine ⟨hd, by simp, ?_⟩
    intro a ha b hb
    simp at hb
    subst hb
    rintro rfl
    exact h ha

theorem get?_del {d : Dict K V} (hd : WF d) (k k' : K) :
    get? (del d k) k' = if k = k' then none else get? d k' := by
  induction d with
  | nil => simp [del, get?]
  | cons p d ih =>
    obtain ⟨a, w⟩ := p
    simp only [WF, keys, List.map_cons, List.nodup_cons] at hd
    by_cases h : a = k
    · subst h
      simp only [del, if_true]
      by_cases h' : a = k'
      · subst h'
        simp only [if_true]
        exact get?_eq_none_iff.mpr hd.1
      · simp [get?, h']
    · by_cases h' : a = k'
      · subst h'
        simp [del, get?, h, Ne.symm h]
      · simp [del, get?, h, h', ih hd.2]

theorem keys_del_sublist (d : Dict K V) (k : K) : (keys (del d k)).Sublist (keys d) := by
  induction d with
  | nil => simp [del, keys]
  | cons p d ih =>
    obtain ⟨a, w⟩ := p
    by_cases h : a = k
    · simp [del, keys, h]
    · simp only [del, h, if_false, keys, List.map_cons]
      exact List.Sublist.cons_cons _ ih

theorem WF_del {d : Dict K V} (hd : WF d) (k : K) : WF (del d k) :=
  hd.sublist (keys_del_sublist d k)

theorem mem_keys_del {d : Dict K V} (hd : WF d) {k k' : K} :
    k' ∈ keys (del d k) ↔ k' ≠ k ∧ k' ∈ keys d := by
  rw [← not_iff_not, ← get?_eq_none_iff, get?_del hd]
  by_cases h : k = k'
  · simp [h]
  · simp [h, Ne.symm h, get?_eq_none_iff]

theorem has_set {d : Dict K V} {k k' : K} {v : V} :
    has (set d k v) k' = (decide (k = k') || has d k') := by
  unfold has
  rw [get?_set]
  by_cases h : k = k' <;> simp [h]

theorem get?_setDefault (d : Dict K V) (k k' : K) (v : V) :
    get? (setDefault d k v) k' =
      if k = k' then some ((get? d k).getD v) else get? d k' := by
  unfold setDefault
  split
  · rename_i h
    obtain ⟨w, hw⟩ := exists_get?_of_mem (has_iff.mp h)
    by_cases hk : k = k'
    · subst hk; simp [hw]
    · simp [hk]
  · rename_i h
    have : get? d k = none := get?_eq_none_iff.mpr (fun hm => h (has_iff.mpr hm))
    simp [this]

theorem keys_setDefault (d : Dict K V) (k : K) (v : V) :
    keys (setDefault d k v) = if k ∈ keys d then keys d else keys d ++ [k] := by
  unfold setDefault
  split
  · rename_i h; rw [if_pos (has_iff.mp h)]
  · rename_i h; rw [keys_set]

theorem WF_setDefault {d : Dict K V} (hd : WF d) (k : K) (v : V) : WF (setDefault d k v) := by
  unfold setDefault
  split
  · exact hd
  · exact WF_set hd k v

theorem mem_keys_setDefault {d : Dict K V} {k k' : K} {v : V} :
    k' ∈ keys (setDefault d k v) ↔ k' = k ∨ k' ∈ keys d := by
  rw [keys_setDefault]
  split
  · rename_i h
    constructor
    · exact Or.inr
    · rintro (rfl | h') <;> assumption
  · simp [or_comm]

end Dict
end Pytimize
