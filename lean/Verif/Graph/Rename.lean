/-
Renaming the nodes of a digraph: every function of the model commutes with an injective renaming, as far as it only
compares names. The functions that apply `set(...)` to a name need the cuts of single nodes to be renamed as well.
-/
import Verif.Graph.Directed
import Mathlib.Data.Prod.Basic

namespace Pytimize

namespace Dict
variable {K V K' V' : Type} [DecidableEq K] [DecidableEq K']

/-- Rename the keys and change the values. -/
def ren (f : K → K') (h : V → V') (d : Dict K V) : Dict K' V' := d.map fun p => (f p.1, h p.2)

theorem get?_ren {f : K → K'} (hf : Function.Injective f) (h : V → V') (d : Dict K V) (k : K) :
    get? (ren f h d) (f k) = (get? d k).map h := by
  induction d with
  | nil => rfl
  | cons p d ih =>
    obtain ⟨a, v⟩ := p
    have ih' : get? (List.map (fun p => (f p.1, h p.2)) d) (f k) = (get? d k).map h := ih
    by_cases hk : a = k
    · subst hk; simp [ren, get?]
    · simp [ren, get?, hk, hf.eq_iff, ih']

theorem has_ren {f : K → K'} (hf : Function.Injective f) (h : V → V') (d : Dict K V) (k : K) :
    has (ren f h d) (f k) = has d k := by
  unfold has
  rw [get?_ren hf]
  cases get? d k <;> rfl

theorem set_ren {f : K → K'} (hf : Function.Injective f) (h : V → V') (d : Dict K V) (k : K) (v : V) :
    set (ren f h d) (f k) (h v) = ren f h (set d k v) := by
  induction d with
  | nil => rfl
  | cons p d ih =>
    obtain ⟨a, w⟩ := p
    have ih' : set (List.map (fun p => (f p.1, h p.2)) d) (f k) (h v) = ren f h (set d k v) := ih
    by_cases hk : a = k
    · subst hk; simp [ren, set]
    · simp only [ren, set, List.map_cons, hf.eq_iff, hk, if_false, ih']

theorem setDefault_ren {f : K → K'} (hf : Function.Injective f) (h : V → V') (d : Dict K V) (k : K) (v : V) :
    setDefault (ren f h d) (f k) (h v) = ren f h (setDefault d k v) := by
  unfold setDefault
  rw [has_ren hf, set_ren hf]
  split <;> rfl

theorem del_ren {f : K → K'} (hf : Function.Injective f) (h : V → V') (d : Dict K V) (k : K) :
    del (ren f h d) (f k) = ren f h (del d k) := by
  induction d with
  | nil => rfl
  | cons p d ih =>
    obtain ⟨a, w⟩ := p
    have ih' : del (List.map (fun p => (f p.1, h p.2)) d) (f k) = ren f h (del d k) := ih
    by_cases hk : a = k
    · subst hk; simp [ren, del]
    · simp only [ren, del, List.map_cons, hf.eq_iff, hk, if_false, ih']

omit [DecidableEq K] [DecidableEq K'] in
theorem keys_ren (f : K → K') (h : V → V') (d : Dict K V) : keys (ren f h d) = (keys d).map f := by
  simp [keys, ren]

omit [DecidableEq K] [DecidableEq K'] in
theorem length_ren (f : K → K') (h : V → V') (d : Dict K V) : (ren f h d).length = d.length := by
  simp [ren]

end Dict

namespace Directed
variable {ρ : Name → Name}

/-- The renamed arc. -/
def renArc (ρ : Name → Name) (a : Arc) : Arc := (ρ a.1, ρ a.2)

theorem renArc_inj (hρ : Function.Injective ρ) : Function.Injective (renArc ρ) := by
  rintro ⟨a, b⟩ ⟨c, d⟩ h
  simp only [renArc, Prod.mk.injEq, hρ.eq_iff] at h
  simp [h]

/-- The renamed flow. -/
def renFlow (ρ : Name → Name) (f : Flow) : Flow := Dict.ren (renArc ρ) id f

/-- The renamed residual dictionary. -/
def renRes (ρ : Name → Name) (r : Resid) : Resid := Dict.ren ρ (Dict.ren ρ id) r

/-- The renamed digraph. -/
def renGraph (ρ : Name → Name) (g : Digraph) : Digraph :=
  ⟨Dict.ren ρ (List.map ρ) g.graph, Dict.ren (renArc ρ) id g.arcs, Dict.ren ρ id g.nodes⟩

/-- The renamed digraph after a call, and its exception. -/
def renOut (ρ : Name → Name) (p : Digraph × Option PyErr) : Digraph × Option PyErr := (renGraph ρ p.1, p.2)

section
variable (hρ : Function.Injective ρ)
include hρ

theorem arc_get? (f : Dict Arc ℚ) (u v : Name) :
    Dict.get? (Dict.ren (renArc ρ) id f) (ρ u, ρ v) = Dict.get? f (u, v) := by
  have := Dict.get?_ren (renArc_inj hρ) id f (u, v)
  simpa [renArc] using this

theorem arc_has (f : Dict Arc ℚ) (u v : Name) :
    Dict.has (Dict.ren (renArc ρ) id f) (ρ u, ρ v) = Dict.has f (u, v) :=
  Dict.has_ren (renArc_inj hρ) id f (u, v)

theorem arc_set (f : Dict Arc ℚ) (u v : Name) (x : ℚ) :
    Dict.set (Dict.ren (renArc ρ) id f) (ρ u, ρ v) x = Dict.ren (renArc ρ) id (Dict.set f (u, v) x) :=
  Dict.set_ren (renArc_inj hρ) id f (u, v) x

theorem get?_renRes (r : Resid) (u : Name) : (renRes ρ r).get? (ρ u) = (r.get? u).map (Dict.ren ρ id) :=
  Dict.get?_ren hρ _ r u

theorem put_ren (r : Resid) (u v : Name) (x : ℚ) : put (renRes ρ r) (ρ u) (ρ v) x = renRes ρ (put r u v x) := by
  unfold put
  rw [get?_renRes hρ]
  have h1 : (Option.map (Dict.ren ρ id) (r.get? u)).getD [] = Dict.ren ρ id ((r.get? u).getD []) := by
    cases r.get? u <;> rfl
  rw [h1]
  have h2 := Dict.set_ren hρ id ((r.get? u).getD []) v x
  simp only [id] at h2
  rw [h2]
  exact Dict.set_ren hρ _ r u _

theorem lookup_ren (r : Resid) (u v : Name) : lookup (renRes ρ r) (ρ u) (ρ v) = lookup r u v := by
  unfold lookup
  rw [get?_renRes hρ]
  cases r.get? u with
  | none => rfl
  | some d =>
    have := Dict.get?_ren hρ id d v
    simpa using this

theorem delIn_ren (r : Resid) (u v : Name) : delIn (renRes ρ r) (ρ u) (ρ v) = renRes ρ (delIn r u v) := by
  unfold delIn
  rw [get?_renRes hρ]
  cases r.get? u with
  | none => rfl
  | some d =>
    simp only [Option.map_some]
    rw [Dict.del_ren hρ]
    exact Dict.set_ren hρ _ r u _

theorem del_renRes (r : Resid) (u : Name) : (renRes ρ r).del (ρ u) = renRes ρ (r.del u) := Dict.del_ren hρ _ r u

theorem updRes_ren (r : Resid) (u v : Name) (x y : ℚ) :
    updRes (renRes ρ r) (ρ u) (ρ v) x y = (updRes r u v x y).map (renRes ρ) := by
  unfold updRes
  simp only [put_ren hρ, lookup_ren hρ]
  cases h1 : lookup (put (put r u v x) v u y) u v with
  | none => rfl
  | some a =>
    simp only
    have e3 : (if a = 0 then delIn (renRes ρ (put (put r u v x) v u y)) (ρ u) (ρ v)
        else renRes ρ (put (put r u v x) v u y)) =
        renRes ρ (if a = 0 then delIn (put (put r u v x) v u y) u v else put (put r u v x) v u y) := by
      split
      · exact delIn_ren hρ _ _ _
      · rfl
    rw [e3]
    generalize (if a = 0 then delIn (put (put r u v x) v u y) u v else put (put r u v x) v u y) = r3
    rw [lookup_ren hρ]
    cases h2 : lookup r3 v u with
    | none => rfl
    | some b =>
      simp only
      have e4 : (if b = 0 then delIn (renRes ρ r3) (ρ v) (ρ u) else renRes ρ r3) =
          renRes ρ (if b = 0 then delIn r3 v u else r3) := by
        split
        · exact delIn_ren hρ _ _ _
        · rfl
      rw [e4]
      generalize (if b = 0 then delIn r3 v u else r3) = r4
      rw [get?_renRes hρ]
      cases h3 : r4.get? u with
      | none => rfl
      | some du =>
        simp only [Option.map_some, Dict.length_ren]
        have e5 : (if du.length = 0 then (renRes ρ r4).del (ρ u) else renRes ρ r4) =
            renRes ρ (if du.length = 0 then r4.del u else r4) := by
          split
          · exact del_renRes hρ _ _
          · rfl
        rw [e5]
        generalize (if du.length = 0 then r4.del u else r4) = r5
        rw [get?_renRes hρ]
        cases h4 : r5.get? v with
        | none => rfl
        | some dv =>
          simp only [Option.map_some, Dict.length_ren, Except.map]
          split
          · rw [del_renRes hρ]
          · rfl

theorem resLoop_ren (flow : Flow) : ∀ (l : Dict Arc ℚ) (r : Resid),
    resLoop (renFlow ρ flow) (Dict.ren (renArc ρ) id l) (renRes ρ r) = (resLoop flow l r).map (renRes ρ) := by
  intro l
  induction l with
  | nil => intro r; rfl
  | cons p l ih =>
    obtain ⟨⟨u, v⟩, c⟩ := p
    intro r
    have hl : Dict.ren (renArc ρ) id (((u, v), c) :: l) = ((ρ u, ρ v), c) :: Dict.ren (renArc ρ) id l := rfl
    have hg : Dict.get? (renFlow ρ flow) (ρ u, ρ v) = Dict.get? flow (u, v) := arc_get? hρ flow u v
    rw [hl]
    simp only [resLoop, hg]
    generalize (Dict.get? flow (u, v)).getD 0 = x
    split
    · rfl
    · have e1 : (if c > x then put (renRes ρ r) (ρ u) (ρ v) (c - x) else renRes ρ r) =
          renRes ρ (if c > x then put r u v (c - x) else r) := by
        split
        · exact put_ren hρ _ _ _ _
        · rfl
      rw [e1]
      generalize (if c > x then put r u v (c - x) else r) = r1
      have e2 : (if x > 0 then put (renRes ρ r1) (ρ v) (ρ u) x else renRes ρ r1) =
          renRes ρ (if x > 0 then put r1 v u x else r1) := by
        split
        · exact put_ren hρ _ _ _ _
        · rfl
      rw [e2]
      exact ih _

theorem computeResidual_ren (g : Digraph) (flow : Flow) :
    computeResidual (renGraph ρ g) (renFlow ρ flow) = (computeResidual g flow).map (renRes ρ) :=
  resLoop_ren hρ flow g.arcs []

/-! ### Breadth-first search and Ford–Fulkerson -/

theorem bfsFor_ren (target cur : Name) : ∀ (l queue seen : List Name) (parent : Dict Name Name),
    bfsFor (ρ target) (ρ cur) (l.map ρ) (queue.map ρ) (seen.map ρ) (Dict.ren ρ ρ parent) =
      match bfsFor target cur l queue seen parent with
      | .inl p => .inl (Dict.ren ρ ρ p)
      | .inr (q, s, p) => .inr (q.map ρ, s.map ρ, Dict.ren ρ ρ p) := by
  intro l
  induction l with
  | nil => intro queue seen parent; rfl
  | cons e es ih =>
    intro queue seen parent
    simp only [List.map_cons, bfsFor, List.mem_map, hρ.eq_iff, exists_eq_right]
    split
    · exact ih queue seen parent
    · rw [Dict.set_ren hρ]
      split
      · rfl
      · have := ih (queue ++ [e]) (e :: seen) (parent.set e cur)
        simpa using this

theorem bfsWhile_ren (target : Name) (r : Resid) : ∀ (fuel : ℕ) (queue seen : List Name) (parent : Dict Name Name),
    bfsWhile (ρ target) (renRes ρ r) fuel (queue.map ρ) (seen.map ρ) (Dict.ren ρ ρ parent) =
      (bfsWhile target r fuel queue seen parent).map (Option.map (Dict.ren ρ ρ)) := by
  intro fuel
  induction fuel with
  | zero => intro queue seen parent; rfl
  | succ fuel ih =>
    intro queue seen parent
    cases queue with
    | nil => rfl
    | cons cur queue =>
      have hk : Dict.keys (((renRes ρ r).get? (ρ cur)).getD []) = (Dict.keys ((r.get? cur).getD [])).map ρ := by
        rw [get?_renRes hρ]
        cases r.get? cur with
        | none => rfl
        | some d => exact Dict.keys_ren ρ id d
      simp only [List.map_cons, bfsWhile, hk, bfsFor_ren hρ]
      cases bfsFor target cur (Dict.keys ((r.get? cur).getD [])) queue seen parent with
      | inl p => rfl
      | inr x => exact ih _ _ _

theorem bfsPath_ren (fuel : ℕ) (source target : Name) (r : Resid) :
    bfsPath fuel (ρ source) (ρ target) (renRes ρ r) =
      (bfsPath fuel source target r).map (Option.map (Dict.ren ρ ρ)) :=
  bfsWhile_ren hρ target r fuel [source] [source] []

theorem minWhile_ren (path : Dict Name Name) (r : Resid) : ∀ (fuel : ℕ) (u : Option Name) (v : Name) (acc : Option ℚ),
    minWhile (Dict.ren ρ ρ path) (renRes ρ r) fuel (u.map ρ) (ρ v) acc = minWhile path r fuel u v acc := by
  intro fuel
  induction fuel with
  | zero => intro u v acc; rfl
  | succ fuel ih =>
    intro u v acc
    cases u with
    | none => rfl
    | some u =>
      simp only [Option.map_some, minWhile, lookup_ren hρ, Dict.get?_ren hρ]
      cases lookup r u v with
      | none => rfl
      | some x => exact ih _ _ _

/-- The renamed flow and residual dictionary. -/
def renPair (ρ : Name → Name) (p : Flow × Resid) : Flow × Resid := (renFlow ρ p.1, renRes ρ p.2)

theorem ffPush_ren (arcs : Dict Arc ℚ) (flow : Flow) (r : Resid) (u v : Name) (δ : ℚ) :
    ffPush (Dict.ren (renArc ρ) id arcs) (renFlow ρ flow) (renRes ρ r) (ρ u) (ρ v) δ =
      (ffPush arcs flow r u v δ).map (renPair ρ) := by
  unfold ffPush renFlow
  simp only [arc_has hρ, arc_get? hρ, updRes_ren hρ, arc_set hρ]
  split
  · cases Dict.get? flow (u, v) with
    | none => rfl
    | some f =>
      cases Dict.get? arcs (u, v) with
      | none => rfl
      | some c =>
        simp only
        cases updRes r u v (c - (f + δ)) (f + δ) <;> rfl
  · cases Dict.get? flow (v, u) with
    | none => rfl
    | some f =>
      cases Dict.get? arcs (v, u) with
      | none => rfl
      | some c =>
        simp only
        cases updRes r u v (c - (f - δ)) (f - δ) <;> rfl

theorem augWhile_ren (arcs : Dict Arc ℚ) (path : Dict Name Name) (δ : ℚ) : ∀ (fuel : ℕ) (u : Option Name) (v : Name)
    (flow : Flow) (r : Resid),
    augWhile (Dict.ren (renArc ρ) id arcs) (Dict.ren ρ ρ path) δ fuel (u.map ρ) (ρ v) (renFlow ρ flow) (renRes ρ r) =
      (augWhile arcs path δ fuel u v flow r).map (renPair ρ) := by
  intro fuel
  induction fuel with
  | zero => intro u v flow r; rfl
  | succ fuel ih =>
    intro u v flow r
    cases u with
    | none => rfl
    | some u =>
      simp only [Option.map_some, augWhile, ffPush_ren hρ, Dict.get?_ren hρ]
      cases ffPush arcs flow r u v δ with
      | error e => rfl
      | ok p => exact ih _ _ _ _

theorem ffBody_ren (g : Digraph) (sink : Name) (inner : ℕ) (path : Dict Name Name) (flow : Flow) (r : Resid) :
    ffBody (renGraph ρ g) (ρ sink) inner (Dict.ren ρ ρ path) (renFlow ρ flow) (renRes ρ r) =
      (ffBody g sink inner path flow r).map (renPair ρ) := by
  unfold ffBody
  rw [Dict.get?_ren hρ]
  cases path.get? sink with
  | none => rfl
  | some u =>
    simp only [Option.map_some]
    rw [show some (ρ u) = (some u).map ρ from rfl, minWhile_ren hρ]
    cases minWhile path r inner (some u) sink none with
    | error e => rfl
    | ok m =>
      cases m with
      | none => rfl
      | some δ => exact augWhile_ren hρ g.arcs path δ inner (some u) sink flow r

omit hρ in
theorem innerFuel_ren (g : Digraph) : innerFuel (renGraph ρ g) = innerFuel g := by
  simp [innerFuel, renGraph, Dict.length_ren]

theorem ffLoop_ren (g : Digraph) (source sink : Name) : ∀ (fuel : ℕ) (flow : Flow) (r : Resid),
    ffLoop (renGraph ρ g) (ρ source) (ρ sink) fuel (renFlow ρ flow) (renRes ρ r) =
      (ffLoop g source sink fuel flow r).map (renFlow ρ) := by
  intro fuel
  induction fuel with
  | zero => intro flow r; rfl
  | succ fuel ih =>
    intro flow r
    simp only [ffLoop, innerFuel_ren, bfsPath_ren hρ]
    cases bfsPath (innerFuel g) source sink r with
    | error e => rfl
    | ok o =>
      cases o with
      | none => rfl
      | some path =>
        simp only [Except.map, Option.map_some, ffBody_ren hρ]
        cases ffBody g sink (innerFuel g) path flow r with
        | error e => rfl
        | ok p => exact ih _ _

theorem checkEnds_ren (g : Digraph) (s t : Name) : checkEnds (renGraph ρ g) (ρ s) (ρ t) = checkEnds g s t := by
  unfold checkEnds hasNode
  simp only [renGraph, Dict.has_ren hρ, hρ.eq_iff]

omit hρ in
theorem zeroFlow_ren (g : Digraph) : zeroFlow (renGraph ρ g) = renFlow ρ (zeroFlow g) := by
  simp [zeroFlow, renGraph, renFlow, Dict.ren]

/-- Ford–Fulkerson finds the renamed flow, whatever the names; only the value is read off with `set(source)`. -/
theorem fordFulkerson_ren (fuel : ℕ) (g : Digraph) (s t : Name) :
    fordFulkerson fuel (renGraph ρ g) (ρ s) (ρ t) = (fordFulkerson fuel g s t).map
      fun p => (flowValue (renGraph ρ g) (ρ s) (renFlow ρ p.2), renFlow ρ p.2) := by
  unfold fordFulkerson
  rw [checkEnds_ren hρ, zeroFlow_ren, computeResidual_ren hρ]
  cases checkEnds g s t with
  | some e => rfl
  | none =>
    cases computeResidual g (zeroFlow g) with
    | error e => rfl
    | ok r =>
      simp only [Except.map, ffLoop_ren hρ]
      cases ffLoop g s t fuel (zeroFlow g) r <;> rfl

/-! ### Cuts of single nodes -/

/-- The cuts `cut(v)` and `ncut(v)` of the node `v`, given by name, are renamed. -/
def CutRen (ρ : Name → Name) (g : Digraph) (v : Name) : Prop :=
  cut (renGraph ρ g) (.name (ρ v)) = (cut g (.name v)).map (renArc ρ) ∧
  ncut (renGraph ρ g) (.name (ρ v)) = (ncut g (.name v)).map (renArc ρ)

theorem sumFlow_ren (flow : Flow) (l : List Arc) : sumFlow (renFlow ρ flow) (l.map (renArc ρ)) = sumFlow flow l := by
  unfold sumFlow renFlow
  rw [List.map_map]
  congr 1
  apply List.map_congr_left
  intro a _
  have := arc_get? hρ flow a.1 a.2
  simp only [Function.comp_apply, renArc, this]

theorem flowValue_ren {g : Digraph} {s : Name} (hc : CutRen ρ g s) (flow : Flow) :
    flowValue (renGraph ρ g) (ρ s) (renFlow ρ flow) = flowValue g s flow := by
  unfold flowValue
  rw [hc.1, hc.2, sumFlow_ren hρ, sumFlow_ren hρ]

/-! ### Preflow push -/

theorem initFlow_ren {g : Digraph} {s : Name} (hc : CutRen ρ g s) :
    initFlow (renGraph ρ g) (ρ s) = renFlow ρ (initFlow g s) := by
  unfold initFlow
  rw [hc.1]
  simp only [renGraph, renFlow, Dict.ren, List.map_map]
  apply List.map_congr_left
  intro p _
  have hm : renArc ρ p.1 ∈ (cut g (.name s)).map (renArc ρ) ↔ p.1 ∈ cut g (.name s) := by
    simp only [List.mem_map, (renArc_inj hρ).eq_iff, exists_eq_right]
  simp only [Function.comp_apply, hm, id]

theorem initHeight_ren (g : Digraph) (s : Name) :
    initHeight (renGraph ρ g) (ρ s) = Dict.ren ρ id (initHeight g s) := by
  simp [initHeight, renGraph, Dict.ren, List.map_map, Function.comp_def, hρ.eq_iff]

theorem innerNodes_ren (g : Digraph) (s t : Name) :
    innerNodes (renGraph ρ g) (ρ s) (ρ t) = (innerNodes g s t).map ρ := by
  unfold innerNodes
  rw [show (renGraph ρ g).nodes.keys = g.nodes.keys.map ρ from Dict.keys_ren ρ id g.nodes, List.filter_map]
  congr 1
  apply List.filter_congr
  intro v _
  simp [hρ.eq_iff]

theorem initExcess_ren {g : Digraph} (hc : ∀ v ∈ g.nodes.keys, CutRen ρ g v) (s t : Name) (flow : Flow) :
    initExcess (renGraph ρ g) (ρ s) (ρ t) (renFlow ρ flow) = Dict.ren ρ id (initExcess g s t flow) := by
  unfold initExcess
  rw [innerNodes_ren hρ]
  have hc' : ∀ v ∈ innerNodes g s t, CutRen ρ g v := fun v hv => hc v (List.mem_of_mem_filter hv)
  suffices h : ∀ (l : List Name) (ex : Dict Name ℚ), (∀ v ∈ l, CutRen ρ g v) →
      (l.map ρ).foldl (fun ex v => Dict.set ex v (sumFlow (renFlow ρ flow) (ncut (renGraph ρ g) (.name v)) -
        sumFlow (renFlow ρ flow) (cut (renGraph ρ g) (.name v)))) (Dict.ren ρ id ex) =
      Dict.ren ρ id (l.foldl (fun ex v => Dict.set ex v (sumFlow flow (ncut g (.name v)) -
        sumFlow flow (cut g (.name v)))) ex) from h _ [] hc'
  intro l
  induction l with
  | nil => intro ex _; rfl
  | cons v l ih =>
    intro ex hl
    have hv := hl v (List.mem_cons_self ..)
    simp only [List.map_cons, List.foldl_cons]
    rw [hv.1, hv.2, sumFlow_ren hρ, sumFlow_ren hρ]
    have h2 := Dict.set_ren hρ id ex v (sumFlow flow (ncut g (.name v)) - sumFlow flow (cut g (.name v)))
    simp only [id] at h2
    rw [h2]
    exact ih _ fun w hw => hl w (List.mem_cons_of_mem _ hw)

/-- The renamed loop variables. -/
def renState (ρ : Name → Name) (s : PState) : PState :=
  ⟨s.index, Dict.ren ρ id s.excess, renFlow ρ s.flow, renRes ρ s.residual, Dict.ren ρ id s.height, s.value⟩

theorem pushArc_ren (arcs : Dict Arc ℚ) (flow : Flow) (r : Resid) (u v : Name) (δ : ℚ) :
    pushArc (Dict.ren (renArc ρ) id arcs) (renFlow ρ flow) (renRes ρ r) (ρ u) (ρ v) δ =
      (pushArc arcs flow r u v δ).map (renPair ρ) := by
  unfold pushArc renFlow
  simp only [arc_has hρ, arc_get? hρ, updRes_ren hρ, arc_set hρ]
  split
  · cases Dict.get? flow (u, v) with
    | none => rfl
    | some f =>
      cases Dict.get? arcs (u, v) with
      | none => rfl
      | some c =>
        simp only
        cases updRes r u v (c - (f + δ)) (f + δ) <;> rfl
  · cases Dict.get? flow (v, u) with
    | none => rfl
    | some f =>
      cases Dict.get? arcs (v, u) with
      | none => rfl
      | some c =>
        simp only
        cases updRes r v u (c - (f - δ)) (f - δ) <;> rfl

theorem dict_get? (d : Dict Name ℚ) (v : Name) : Dict.get? (Dict.ren ρ id d) (ρ v) = Dict.get? d v := by
  have := Dict.get?_ren hρ id d v
  simpa using this

theorem height_get? (d : Dict Name ℕ) (v : Name) : Dict.get? (Dict.ren ρ id d) (ρ v) = Dict.get? d v := by
  have := Dict.get?_ren hρ id d v
  simpa using this

theorem dict_set (d : Dict Name ℚ) (v : Name) (x : ℚ) :
    Dict.set (Dict.ren ρ id d) (ρ v) x = Dict.ren ρ id (Dict.set d v x) := Dict.set_ren hρ id d v x

theorem push_ren (g : Digraph) (s t : Name) (st : PState) (u v : Name) (x : ℚ) :
    push (renGraph ρ g) (ρ s) (ρ t) (renState ρ st) (ρ u) (ρ v) x = (push g s t st u v x).map (renState ρ) := by
  unfold push
  simp only [renState, renGraph, dict_get? hρ]
  cases Dict.get? st.excess u with
  | none => rfl
  | some ex =>
    simp only [pushArc_ren hρ]
    cases pushArc g.arcs st.flow st.residual u v (min ex x) with
    | error e => rfl
    | ok p =>
      simp only [Except.map, renPair, hρ.ne_iff]
      by_cases hu : u ≠ s ∧ u ≠ t
      · simp only [if_pos hu, dict_set hρ, dict_get? hρ]
        by_cases hv : v ≠ s ∧ v ≠ t
        · simp only [if_pos hv]
          generalize Dict.set st.excess u (ex - min ex x) = ex1
          cases Dict.get? ex1 v with
          | none => rfl
          | some ee => simp [renState]
        · simp only [if_neg hv, renState]
      · simp only [if_neg hu, dict_get? hρ]
        by_cases hv : v ≠ s ∧ v ≠ t
        · simp only [if_pos hv]
          cases Dict.get? st.excess v with
          | none => rfl
          | some ee => simp [dict_set hρ, renState]
        · simp only [if_neg hv, renState]

theorem findAdmissible_ren (height : Dict Name ℕ) (hn : ℕ) : ∀ l : Dict Name ℚ,
    findAdmissible (Dict.ren ρ id height) hn (Dict.ren ρ id l) =
      (findAdmissible height hn l).map (Option.map fun p => (ρ p.1, p.2)) := by
  intro l
  induction l with
  | nil => rfl
  | cons p l ih =>
    obtain ⟨e, x⟩ := p
    have hl : Dict.ren ρ id ((e, x) :: l) = (ρ e, x) :: Dict.ren ρ id l := rfl
    rw [hl]
    simp only [findAdmissible, height_get? hρ]
    cases Dict.get? height e with
    | none => rfl
    | some he =>
      simp only
      split
      · rfl
      · exact ih

theorem minHeight_ren (height : Dict Name ℕ) : ∀ (l : Dict Name ℚ) (acc : Option ℕ),
    minHeight (Dict.ren ρ id height) (Dict.ren ρ id l) acc = minHeight height l acc := by
  intro l
  induction l with
  | nil => intro acc; rfl
  | cons p l ih =>
    intro acc
    obtain ⟨e, x⟩ := p
    have hl : Dict.ren ρ id ((e, x) :: l) = (ρ e, x) :: Dict.ren ρ id l := rfl
    rw [hl]
    simp only [minHeight, height_get? hρ]
    cases Dict.get? height e with
    | none => rfl
    | some he => exact ih _

theorem discharge_ren (g : Digraph) (s t : Name) (st : PState) (v : Name) :
    discharge (renGraph ρ g) (ρ s) (ρ t) (renState ρ st) (ρ v) = (discharge g s t st v).map (renState ρ) := by
  unfold discharge
  simp only [renState, get?_renRes hρ, height_get? hρ]
  cases st.residual.get? v with
  | none => rfl
  | some d =>
    cases st.height.get? v with
    | none => rfl
    | some hn =>
      simp only [Option.map_some, findAdmissible_ren hρ]
      cases findAdmissible st.height hn d with
      | error e => rfl
      | ok o =>
        cases o with
        | some p =>
          have h := push_ren hρ g s t st v p.1 p.2
          simp only [renState] at h
          simp only [Except.map, Option.map_some, h]
          cases push g s t st v p.1 p.2 <;> rfl
        | none =>
          simp only [Except.map, Option.map_none, minHeight_ren hρ]
          cases minHeight st.height d none with
          | error e => rfl
          | ok m =>
            cases m with
            | none => rfl
            | some m =>
              have h2 := Dict.set_ren hρ id st.height v (m + 1)
              simp only [id] at h2
              simp [h2, renState]

theorem pStep_ren {g : Digraph} {s : Name} (hc : CutRen ρ g s) (t : Name) (nodes nodes' : List Name) (st : PState)
    (v : Name) : pStep (renGraph ρ g) (ρ s) (ρ t) nodes' (renState ρ st) (ρ v) =
      (pStep g s t nodes st v).map (renState ρ) := by
  unfold pStep
  rw [show Dict.get? (renState ρ st).excess (ρ v) = Dict.get? st.excess v from dict_get? hρ _ _]
  cases Dict.get? st.excess v with
  | none => rfl
  | some ex =>
    by_cases hx : ex > 0
    · simp only [if_pos hx, discharge_ren hρ]
      cases discharge g s t st v with
      | error e => rfl
      | ok st' => simp [Except.map, renState, flowValue_ren hρ hc]
    · simp [if_neg hx, Except.map, renState, flowValue_ren hρ hc]

theorem pLoop_ren {g : Digraph} {s : Name} (hc : CutRen ρ g s) (t : Name) (nodes : List Name) :
    ∀ (fuel : ℕ) (st : PState), pLoop (renGraph ρ g) (ρ s) (ρ t) (nodes.map ρ) fuel (renState ρ st) =
      (pLoop g s t nodes fuel st).map (renState ρ) := by
  intro fuel
  induction fuel with
  | zero => intro st; rfl
  | succ fuel ih =>
    intro st
    simp only [pLoop, List.getElem?_map]
    rw [show (renState ρ st).index = st.index from rfl]
    cases nodes[st.index]? with
    | none => rfl
    | some v =>
      simp only [Option.map_some]
      rw [pStep_ren hρ hc t nodes (nodes.map ρ) st v]
      cases pStep g s t nodes st v with
      | error e => rfl
      | ok st' => exact ih st'

/-- `preflow_push` finds the renamed flow with the same value, if the cuts of single nodes are renamed. -/
theorem preflowPush_ren (fuel : ℕ) {g : Digraph} (hc : ∀ v ∈ g.nodes.keys, CutRen ρ g v) (s t : Name) :
    preflowPush fuel (renGraph ρ g) (ρ s) (ρ t) = (preflowPush fuel g s t).map fun p => (p.1, renFlow ρ p.2) := by
  unfold preflowPush
  rw [checkEnds_ren hρ]
  cases he : checkEnds g s t with
  | some e => rfl
  | none =>
    have hs : s ∈ g.nodes.keys := by
      by_contra hn
      have : hasNode g s = false := Dict.has_eq_false_iff.mpr hn
      simp [checkEnds, this] at he
    simp only
    unfold pInit
    simp only [initFlow_ren hρ (hc s hs), computeResidual_ren hρ, initExcess_ren hρ hc, initHeight_ren hρ,
      innerNodes_ren hρ]
    cases computeResidual g (initFlow g s) with
    | error e => rfl
    | ok r =>
      simp only [Except.map]
      have h := pLoop_ren hρ (hc s hs) t (innerNodes g s t) fuel
        ⟨0, initExcess g s t (initFlow g s), initFlow g s, r, initHeight g s, none⟩
      simp only [renState] at h
      rw [h]
      cases pLoop g s t (innerNodes g s t) fuel
        ⟨0, initExcess g s t (initFlow g s), initFlow g s, r, initHeight g s, none⟩ with
      | error e => rfl
      | ok st =>
        obtain ⟨_, _, _, _, _, v⟩ := st
        cases v <;> rfl

/-! ### When the cuts of single nodes are renamed -/

omit hρ in
theorem cutRen_of_sets {g : Digraph} {v : Name} (h : ∀ a ∈ g.arcs.keys,
    (ρ a.1 ∈ chars (ρ v) ↔ a.1 ∈ chars v) ∧ (ρ a.2 ∈ chars (ρ v) ↔ a.2 ∈ chars v)) : CutRen ρ g v := by
  have hk : (renGraph ρ g).arcs.keys = g.arcs.keys.map (renArc ρ) := Dict.keys_ren _ _ _
  constructor
  · unfold cut
    rw [hk, List.filter_map]
    congr 1
    apply List.filter_congr
    intro a ha
    obtain ⟨h1, h2⟩ := h a ha
    rw [Bool.eq_iff_iff]
    simp [NodeArg.toSet, renArc, h1, h2]
    exact Iff.and decide_eq_true_iff.symm decide_eq_true_iff.symm
  · unfold ncut
    rw [hk, List.filter_map]
    congr 1
    apply List.filter_congr
    intro a ha
    obtain ⟨h1, h2⟩ := h a ha
    rw [Bool.eq_iff_iff]
    simp [NodeArg.toSet, renArc, h1, h2]
    exact Iff.and decide_eq_true_iff.symm decide_eq_true_iff.symm

end

/-- A renaming letter by letter. -/
theorem cutRen_letters {σ : Char → Char} (hσ : Function.Injective σ) (g : Digraph) (v : Name) :
    CutRen (List.map σ) g v := by
  have hinj : Function.Injective (List.map σ) := List.map_injective_iff.mpr hσ
  have hch : chars (v.map σ) = (chars v).map (List.map σ) := by simp [chars]
  refine cutRen_of_sets fun a _ => ?_
  rw [hch]
  simp only [List.mem_map, hinj.eq_iff, exists_eq_right, and_self]

/-- One-letter names to one-letter names. -/
theorem cutRen_single {ρ : Name → Name} (hρ : Function.Injective ρ) {g : Digraph} {v : Name} (h1 : v.length = 1)
    (h2 : (ρ v).length = 1) : CutRen ρ g v := by
  obtain ⟨c, rfl⟩ := List.length_eq_one_iff.mp h1
  obtain ⟨d, hd⟩ := List.length_eq_one_iff.mp h2
  refine cutRen_of_sets fun a _ => ?_
  have hc1 : chars (ρ [c]) = [ρ [c]] := by rw [hd]; rfl
  rw [hc1]
  simp [chars, hρ.eq_iff]

end Directed
end Pytimize
