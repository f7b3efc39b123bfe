/-
Lemmas for `formulate_max_stable_set`: the program it builds, in closed form.
-/
import Verif.Graph.UndirectedWF
import Verif.LP.BasicLemmas

namespace Pytimize
namespace Undirected

open Directed (Name chars setAdd NodeArg)
open LinProg (LP Prog Feas objVal PyVal)

theorem get?_zipIdx (l : List Name) (k : ℕ) (v : Name) :
    Dict.get? (V := ℕ) (l.zipIdx k) v = if v ∈ l then some (k + l.idxOf v) else none := by
  induction l generalizing k with
  | nil => simp [Dict.get?]
  | cons a l ih =>
    simp only [List.zipIdx_cons, Dict.get?]
    by_cases h : a = v
    · subst h; simp
    · rw [if_neg h, ih]
      by_cases hm : v ∈ l
      · have : v ∈ a :: l := List.mem_cons_of_mem _ hm
        rw [if_pos hm, if_pos this, List.idxOf_cons_ne l h]
        congr 1; omega
      · have : v ∉ a :: l := by simp [hm, Ne.symm h]
        rw [if_neg hm, if_neg this]

theorem mapping_get? (g : Ugraph) (v : Name) :
    (mapping g).get? v = if v ∈ g.vertices.keys then some (g.vertices.keys.idxOf v) else none := by
  unfold mapping
  rw [get?_zipIdx]
  simp

theorem mapping_length (g : Ugraph) : (mapping g).length = g.vertices.length := by
  simp [mapping, Dict.keys]

theorem keys_length (g : Ugraph) : g.vertices.keys.length = g.vertices.length := by simp [Dict.keys]

theorem col_eq {g : Ugraph} {v : Name} (hv : v ∈ g.vertices.keys) :
    col g v = g.vertices.keys.idxOf v := by
  unfold col
  rw [mapping_get?, if_pos hv]
  rfl

theorem col_lt {g : Ugraph} {v : Name} (hv : v ∈ g.vertices.keys) : col g v < g.vertices.length := by
  rw [col_eq hv, ← keys_length]
  exact List.idxOf_lt_length_of_mem hv

theorem col_inj {g : Ugraph} {u v : Name} (hu : u ∈ g.vertices.keys) (hv : v ∈ g.vertices.keys)
    (h : col g u = col g v) : u = v := by
  rw [col_eq hu, col_eq hv] at h
  exact (List.idxOf_inj hu).mp h

theorem keys_col {g : Ugraph} {v : Name} (hv : v ∈ g.vertices.keys) :
    g.vertices.keys[col g v]? = some v := by
  rw [col_eq hv]
  rw [List.getElem?_eq_getElem (List.idxOf_lt_length_of_mem hv), List.getElem_idxOf]

/-! ### Stacking -/

theorem vstacks_d2 {c : ℕ} {rows rs : List (List ℚ)} (h : ∀ r ∈ rs, r.length = c) :
    (Stack.d2 c rows).vstacks rs = .ok (.d2 c (rows ++ rs)) := by
  induction rs generalizing rows with
  | nil => simp [Stack.vstacks]
  | cons r rs ih =>
    have hr : c = r.length := (h r (by simp)).symm
    have : (Stack.d2 c rows).vstack r = .ok (.d2 c (rows ++ [r])) := by
      simp only [Stack.vstack]; rw [if_pos hr]
    simp only [Stack.vstacks, this]
    rw [ih fun r' hr' => h r' (by simp [hr'])]
    simp

theorem vstacks_d1 {c : ℕ} {junk r : List ℚ} {rs : List (List ℚ)} (hj : junk.length = c)
    (h : ∀ r' ∈ r :: rs, r'.length = c) :
    (Stack.d1 junk).vstacks (r :: rs) = .ok (.d2 c (junk :: r :: rs)) := by
  have hr : r.length = c := h r (by simp)
  have : (Stack.d1 junk).vstack r = .ok (.d2 c [junk, r]) := by
    simp only [Stack.vstack]; rw [if_pos (hj.trans hr.symm), hr]
  simp only [Stack.vstacks, this]
  rw [vstacks_d2 fun r' hr' => h r' (by simp [hr'])]
  simp

theorem unitRow_length (c : ℕ) (is : List ℕ) : (unitRow c is).length = c := by simp [unitRow]

theorem unitRow_get {c j : ℕ} (is : List ℕ) (hj : j < c) :
    ((unitRow c is)[j]?).getD 0 = if j ∈ is then 1 else 0 := by
  simp [unitRow, hj]

/-- The rows of the constraint matrix. -/
def ssRows (g : Ugraph) : List (List ℚ) :=
  (g.edges.keys.map fun e => unitRow (mapping g).length [col g e.1, col g e.2]) ++
    (List.range (mapping g).length).map fun i => unitRow (mapping g).length [i]

theorem ssRows_length (g : Ugraph) : (ssRows g).length = g.edges.length + (mapping g).length := by
  simp [ssRows, Dict.keys]

/-! ### The objective vector -/

theorem foldl_set_other {f : Name → ℕ} (l : List (Name × ℚ)) (init : List ℚ) {i : ℕ}
    (hi : ∀ p ∈ l, f p.1 ≠ i) :
    (l.foldl (fun c p => c.set (f p.1) p.2) init)[i]? = init[i]? := by
  induction l generalizing init with
  | nil => rfl
  | cons p l ih =>
    simp only [List.foldl_cons]
    rw [ih _ fun q hq => hi q (by simp [hq]), List.getElem?_set_ne (hi p (by simp))]

theorem foldl_set_length {f : Name → ℕ} (l : List (Name × ℚ)) (init : List ℚ) :
    (l.foldl (fun c p => c.set (f p.1) p.2) init).length = init.length := by
  induction l generalizing init with
  | nil => rfl
  | cons p l ih => simp only [List.foldl_cons]; rw [ih]; simp

theorem foldl_set_get {f : Name → ℕ} (l : List (Name × ℚ)) (init : List ℚ)
    (hlt : ∀ p ∈ l, f p.1 < init.length) (hinj : ∀ p ∈ l, ∀ q ∈ l, f p.1 = f q.1 → p.1 = q.1)
    (hnd : (l.map Prod.fst).Nodup) {p : Name × ℚ} (hp : p ∈ l) :
    (l.foldl (fun c p => c.set (f p.1) p.2) init)[f p.1]? = some p.2 := by
  induction l generalizing init with
  | nil => simp at hp
  | cons q l ih =>
    simp only [List.foldl_cons]
    simp only [List.map_cons, List.nodup_cons] at hnd
    rcases List.mem_cons.mp hp with rfl | hp'
    · rw [foldl_set_other]
      · rw [List.getElem?_set_self (hlt p (by simp))]
      · intro r hr he
        have := hinj r (by simp [hr]) p (by simp) he
        exact hnd.1 (this ▸ List.mem_map_of_mem (f := Prod.fst) hr)
    · exact ih _ (fun r hr => by simpa using hlt r (by simp [hr]))
        (fun r hr r' hr' => hinj r (by simp [hr]) r' (by simp [hr'])) hnd.2 hp'

theorem costs_length (g : Ugraph) : (costs g).length = (mapping g).length := by
  unfold costs
  rw [foldl_set_length (f := col g)]
  simp

theorem costs_get {g : Ugraph} (hW : g.vertices.WF) {v : Name} {w : ℚ}
    (h : g.vertices.get? v = some w) : (costs g)[col g v]? = some w := by
  have hm := Dict.mem_of_get? h
  have key : ∀ p ∈ g.vertices, p.1 ∈ g.vertices.keys := fun p hp => List.mem_map_of_mem (f := Prod.fst) hp
  refine foldl_set_get (f := col g) g.vertices _ ?_ ?_ hW hm
  · intro p hp
    rw [List.length_replicate, mapping_length]
    exact col_lt (key p hp)
  · intro p hp q hq he
    exact col_inj (key p hp) (key q hq) he

/-! ### The constructor call -/

theorem ctor_le {m n k : ℕ} (f : Matrix (Fin m) (Fin n) ℚ) {c : List ℚ} (hc : c.length = n) (hk : k = m) :
    LinProg.ctor (.nd2 m n f) (.nd1 (List.replicate k 1)) (.nd1 c) 0 "max"
      (some (List.replicate k "<=")) none none =
    .ok ⟨m, n, { A := f, b := fun _ => 1, c := fun j => c[j]'(by rw [hc]; exact j.2), z := 0,
                 objective := .max, ineq := fun _ => .le, free := [], neg := [],
                 isSef := LinProg.sefFlag (fun _ : Fin m => .le) [] [] .max }⟩ := by
  subst hk
  have h1 : LinProg.toVec k (List.replicate k (1 : ℚ)) = some fun _ => 1 := by
    unfold LinProg.toVec
    rw [dif_pos (by simp)]
    simp
  have h2 : LinProg.toVec n c = some fun j => c[j]'(by rw [hc]; exact j.2) := by
    unfold LinProg.toVec
    rw [dif_pos hc]
  have h3 : LinProg.ineqArg k (some (List.replicate k "<=")) = some fun _ => .le := by
    simp only [LinProg.ineqArg]
    have hle : LinProg.Ineq.parse "<=" = some .le := by decide
    rw [dif_pos (by simp)]
    simp [hle]
  have h4 : LinProg.Obj.parse "max" = some .max := by decide
  have h5 : LinProg.sortInt (LinProg.toArrayIndexing (Option.getD (none : Option (List ℤ)) [])) = [] := rfl
  unfold LinProg.ctor
  simp only [LinProg.toNdarray, h1, h2, h3, h4, h5]
  simp [LinProg.indexListOk]

/-- The program built for a graph with at least one edge. -/
def ssLP (g : Ugraph) : LP (ssRows g).length (mapping g).length where
  A i j := (((ssRows g)[i])[(j : ℕ)]?).getD 0
  b _ := 1
  c j := (costs g)[j]'(by rw [costs_length]; exact j.2)
  z := 0
  objective := .max
  ineq _ := .le
  free := []
  neg := []
  isSef := LinProg.sefFlag (fun _ : Fin (ssRows g).length => .le) [] [] .max

theorem formulate_eq {g : Ugraph} {junk : List ℚ} (hj : junk.length = g.vertices.length)
    (hv : g.vertices ≠ []) (he : g.edges ≠ []) :
    formulateMaxStableSet junk g = .ok (some (⟨⟨_, _, ssLP g⟩, none⟩, mapping g)) := by
  have hE : isEmpty g = false := by
    unfold isEmpty
    simp only [decide_eq_false_iff_not]
    exact fun hc => hv (List.length_eq_zero_iff.mp hc)
  unfold formulateMaxStableSet
  rw [hE]
  simp only [Bool.false_eq_true, if_false]
  have hek : g.edges.keys ≠ [] := by simpa [Dict.keys] using he
  obtain ⟨e, es, hes⟩ := List.exists_cons_of_ne_nil hek
  rw [hes]
  simp only [List.map_cons]
  rw [vstacks_d1 (c := (mapping g).length) (by rw [hj, mapping_length])]
  · simp only [Stack.tail, List.tail_cons]
    rw [vstacks_d2]
    · simp only [Stack.toVal]
      have hrows : (unitRow (mapping g).length [col g e.1, col g e.2] ::
          List.map (fun e => unitRow (mapping g).length [col g e.1, col g e.2]) es) ++
          List.map (fun i => unitRow (mapping g).length [i]) (List.range (mapping g).length) = ssRows g := by
        simp [ssRows, hes]
      rw [hrows]
      have := ctor_le (fun (i : Fin (ssRows g).length) (j : Fin (mapping g).length) =>
        (((ssRows g)[i])[(j : ℕ)]?).getD 0) (costs_length g) (ssRows_length g).symm
      generalize LinProg.ctor _ _ _ _ _ _ _ _ = r at this ⊢
      rw [this]
      rfl
    · intro r hr
      obtain ⟨i, _, rfl⟩ := List.mem_map.mp hr
      exact unitRow_length _ _
  · intro r hr
    rcases List.mem_cons.mp hr with rfl | hr
    · exact unitRow_length _ _
    · obtain ⟨i, _, rfl⟩ := List.mem_map.mp hr
      exact unitRow_length _ _

/-- Feasibility of the program, without matrices. -/
theorem ss_feas {g : Ugraph} (hW : Weak g) (x : Fin (mapping g).length → ℚ) :
    Feas (ssLP g) x ↔ (∀ j, 0 ≤ x j) ∧ (∀ j, x j ≤ 1) ∧
      ∀ a b, (a, b) ∈ g.edges.keys → ∀ i j : Fin (mapping g).length, (i : ℕ) = col g a → (j : ℕ) = col g b →
        x i + x j ≤ 1 := by
  have hrow : ∀ is : List ℕ, (∑ j : Fin (mapping g).length,
      (((unitRow (mapping g).length is)[(j : ℕ)]?).getD 0) * x j) = ∑ j : Fin (mapping g).length, if (j : ℕ) ∈ is then x j else 0 := by
    intro is
    apply Finset.sum_congr rfl
    intro j _
    rw [unitRow_get is j.2]
    split <;> simp
  have hrows : (∀ i, LinProg.rowHolds ((ssLP g).ineq i) (((ssLP g).A.mulVec x) i) ((ssLP g).b i)) ↔
      ∀ r ∈ ssRows g, (∑ j : Fin (mapping g).length, ((r[(j : ℕ)]?).getD 0) * x j) ≤ 1 := by
    constructor
    · intro h r hr
      obtain ⟨i, hi, rfl⟩ := List.mem_iff_getElem.mp hr
      exact h ⟨i, hi⟩
    · intro h i
      exact h _ (List.getElem_mem i.2)
  have hsingle : ∀ i : Fin (mapping g).length,
      (∑ j : Fin (mapping g).length, if (j : ℕ) ∈ [(i : ℕ)] then x j else 0) = x i := by
    intro i
    rw [Finset.sum_eq_single i]
    · simp
    · intro j _ hj
      have : (j : ℕ) ≠ i := fun hc => hj (Fin.ext hc)
      simp [this]
    · simp
  have hpair : ∀ i j : Fin (mapping g).length, i ≠ j →
      (∑ k : Fin (mapping g).length, if (k : ℕ) ∈ [(i : ℕ), (j : ℕ)] then x k else 0) = x i + x j := by
    intro i j hij
    have : ∀ k : Fin (mapping g).length, (if (k : ℕ) ∈ [(i : ℕ), (j : ℕ)] then x k else 0) =
        (if (k : ℕ) ∈ [(i : ℕ)] then x k else 0) + (if (k : ℕ) ∈ [(j : ℕ)] then x k else 0) := by
      intro k
      by_cases h1 : (k : ℕ) = i
      · have h2 : (k : ℕ) ≠ j := fun hc => hij (Fin.ext (h1.symm.trans hc))
        have h3 : (i : ℕ) ≠ j := fun hc => hij (Fin.ext hc)
        simp [h1, h3]
      · simp [h1]
    rw [Finset.sum_congr rfl fun k _ => this k, Finset.sum_add_distrib, hsingle, hsingle]
  have hcl : ∀ v ∈ g.vertices.keys, col g v < (mapping g).length := fun v hv => by
    rw [mapping_length]; exact col_lt hv
  constructor
  · intro hF
    have h1 := hrows.mp hF.rows
    refine ⟨fun j => hF.poss j (by simp [ssLP]) (by simp [ssLP]), ?_, ?_⟩
    · intro j
      have := h1 (unitRow (mapping g).length [(j : ℕ)]) (by
        unfold ssRows
        exact List.mem_append_right _ (List.mem_map.mpr ⟨j, List.mem_range.mpr j.2, rfl⟩))
      rwa [hrow, hsingle] at this
    · intro a b hab i j hi hj
      have := h1 (unitRow (mapping g).length [col g a, col g b]) (by
        unfold ssRows
        exact List.mem_append_left _ (List.mem_map.mpr ⟨(a, b), hab, rfl⟩))
      rw [hrow, ← hi, ← hj, hpair] at this
      · exact this
      · rintro rfl
        have hv := hW.ends a b hab
        exact (hW.sorted a b hab).ne (col_inj hv.1 hv.2 (hi.symm.trans hj))
  · rintro ⟨h0, h1, h2⟩
    refine ⟨hrows.mpr ?_, fun j hj => by simp [ssLP] at hj, fun j _ _ => h0 j⟩
    intro r hr
    unfold ssRows at hr
    rcases List.mem_append.mp hr with hr | hr
    · obtain ⟨⟨a, b⟩, hab, rfl⟩ := List.mem_map.mp hr
      have hv := hW.ends a b hab
      have hne : col g a ≠ col g b := fun hc => (hW.sorted a b hab).ne (col_inj hv.1 hv.2 hc)
      have := hpair ⟨col g a, hcl a hv.1⟩ ⟨col g b, hcl b hv.2⟩ (fun hc => hne (Fin.mk.inj hc))
      rw [hrow]
      simp only at this ⊢
      rw [this]
      exact h2 a b hab _ _ rfl rfl
    · obtain ⟨i, hi, rfl⟩ := List.mem_map.mp hr
      rw [hrow]
      have := hsingle ⟨i, List.mem_range.mp hi⟩
      simp only at this
      rw [this]
      exact h1 _

/-- The objective of the program, without matrices. -/
theorem ss_obj {g : Ugraph} (hW : Weak g) (x : Fin (mapping g).length → ℚ) (y : Name → ℚ)
    (hxy : ∀ v, ∀ j : Fin (mapping g).length, (mapping g).get? v = some (j : ℕ) → x j = y v) :
    objVal (ssLP g) x = (g.vertices.map fun p => p.2 * y p.1).sum := by
  unfold objVal
  have hz : (ssLP g).z = 0 := rfl
  rw [hz, add_zero]
  have hlen : g.vertices.length = (mapping g).length := (mapping_length g).symm
  have hl : (g.vertices.map fun p => p.2 * y p.1) =
      List.ofFn fun j : Fin (mapping g).length => (ssLP g).c j * x j := by
    apply List.ext_getElem
    · simp [hlen]
    · intro i h1 h2
      simp only [List.getElem_map, List.getElem_ofFn]
      have hi : i < g.vertices.length := by simpa using h1
      have hi' : i < (mapping g).length := hlen ▸ hi
      have hk : g.vertices.keys[i]'(by rw [keys_length]; exact hi) = (g.vertices[i]).1 := by simp [Dict.keys]
      have hmem : (g.vertices[i]).1 ∈ g.vertices.keys := List.mem_map_of_mem (f := Prod.fst) (List.getElem_mem hi)
      have hidx : g.vertices.keys.idxOf (g.vertices[i]).1 = i := by
        rw [← hk]
        exact List.Nodup.idxOf_getElem hW.vertsWF i _
      have hcol : col g (g.vertices[i]).1 = i := by rw [col_eq hmem, hidx]
      have hget : g.vertices.get? (g.vertices[i]).1 = some (g.vertices[i]).2 :=
        Dict.get?_of_mem hW.vertsWF (List.getElem_mem hi)
      have hc := costs_get hW.vertsWF hget
      rw [hcol] at hc
      have hc' : (ssLP g).c ⟨i, hi'⟩ = (g.vertices[i]).2 := by
        have : (costs g)[i]'(by rw [costs_length]; exact hi') = (g.vertices[i]).2 := by
          rw [List.getElem?_eq_getElem (by rw [costs_length]; exact hi')] at hc
          exact Option.some.inj hc
        exact this
      rw [hc', hxy (g.vertices[i]).1 ⟨i, hi'⟩ (by rw [mapping_get?, if_pos hmem, hidx])]
  rw [hl, List.sum_ofFn]
  rfl

end Undirected
end Pytimize
