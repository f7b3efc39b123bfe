/-
C12 and C14: digraphs on which `preflow_push` never ends, raises `KeyError`, or returns a vector that is no flow.
-/
import Verif.Props.MaxFlowLoop

namespace Pytimize
namespace Props
open _root_.Pytimize.Directed

/-! ### An endless run -/

/-- Four arcs, two of them opposite. -/
def backArcs : List (Char × Char × ℚ) := [('s', 'b', 3), ('b', 's', 2), ('s', 't', 1), ('b', 'a', 2)]

/-- The digraph with the arcs `backArcs`. -/
def backGraph : Digraph := (ctor [] (arcs1 backArcs) []).toOption.getD ⟨[], [], []⟩

theorem backGraph_arcs : backGraph.arcs = arcs1 backArcs := by decide +kernel

/-- One unit of excess at `b`, no flow from `b` to `a`. -/
def backB (hb ha : ℕ) (v : Option ℚ) : PState :=
  ⟨0, [(['b'], 1), (['a'], 0)], arcs1 [('s', 'b', 3), ('b', 's', 2), ('s', 't', 1), ('b', 'a', 0)],
    [(['b'], [(['a'], 2)]), (['t'], [(['s'], 1)]), (['s'], [(['b'], 2)])],
    [(['s'], 4), (['b'], hb), (['t'], 0), (['a'], ha)], v⟩

/-- One unit of excess at `a`. -/
def backA (i hb ha : ℕ) (v : Option ℚ) : PState :=
  ⟨i, [(['b'], 0), (['a'], 1)], arcs1 [('s', 'b', 3), ('b', 's', 2), ('s', 't', 1), ('b', 'a', 1)],
    [(['b'], [(['a'], 1)]), (['t'], [(['s'], 1)]), (['s'], [(['b'], 2)]), (['a'], [(['b'], 1)])],
    [(['s'], 4), (['b'], hb), (['t'], 0), (['a'], ha)], v⟩

/-- The states of the endless part of the run. -/
inductive Back : PState → Prop
  | one (h v) : Back (backB h (h + 1) v)
  | two (h v) : Back (backB (h + 1) h v)
  | three (h v) : Back (backA 0 (h + 1) h v)
  | four (h v) : Back (backA 1 (h + 1) h v)
  | five (h v) : Back (backA 0 h (h + 1) v)
  | six (h v) : Back (backA 1 h (h + 1) v)

theorem discharge_relabel {g : Digraph} {s t n e : Name} {st : PState} {x : ℚ} {hn he : ℕ}
    (h1 : st.residual.get? n = some [(e, x)]) (h2 : st.height.get? n = some hn) (h3 : st.height.get? e = some he)
    (h4 : he + 1 ≠ hn) : discharge g s t st n = .ok { st with height := st.height.set n (he + 1), index := 0 } := by
  have : ¬ ((he : ℤ) = (hn : ℤ) - 1) := by omega
  simp only [discharge, h1, h2, findAdmissible, h3, if_neg this, minHeight]

theorem discharge_push {g : Digraph} {s t n e : Name} {st st' : PState} {x : ℚ} {hn he : ℕ}
    (h1 : st.residual.get? n = some [(e, x)]) (h2 : st.height.get? n = some hn) (h3 : st.height.get? e = some he)
    (h4 : he + 1 = hn) (h5 : push g s t st n e x = .ok st') :
    discharge g s t st n = .ok { st' with index := 0 } := by
  have : (he : ℤ) = (hn : ℤ) - 1 := by omega
  simp only [discharge, h1, h2, findAdmissible, h3, if_pos this, h5]

theorem push_back_b (h : ℕ) (v : Option ℚ) :
    push backGraph ['s'] ['t'] (backB (h + 1) h v) ['b'] ['a'] 2 = .ok (backA 0 (h + 1) h v) := by
  unfold push
  rw [backGraph_arcs]
  with_unfolding_all rfl

theorem push_back_a (h : ℕ) (v : Option ℚ) :
    push backGraph ['s'] ['t'] (backA 1 h (h + 1) v) ['a'] ['b'] 1 = .ok { backB h (h + 1) v with index := 1 } := by
  unfold push
  rw [backGraph_arcs]
  with_unfolding_all rfl

theorem backGraph_step (st : PState) (h : Back st) : ∃ n st', [['b'], ['a']][st.index]? = some n ∧
    pStep backGraph ['s'] ['t'] [['b'], ['a']] st n = .ok st' ∧ Back st' := by
  cases h with
  | one h v =>
    refine ⟨['b'], _, rfl, ?_, Back.two (h + 1) (some (flowValue backGraph ['s'] (backB 0 0 none).flow))⟩
    have hd := discharge_relabel (g := backGraph) (s := ['s']) (t := ['t']) (st := backB h (h + 1) v) (n := ['b'])
      (e := ['a']) (x := 2) (hn := h) (he := h + 1) rfl rfl rfl (by omega)
    unfold pStep
    rw [show (backB h (h + 1) v).excess.get? ['b'] = some 1 from rfl]
    simp only [gt_iff_lt, zero_lt_one, if_true, hd]
    rfl
  | two h v =>
    refine ⟨['b'], _, rfl, ?_, Back.three h (some (flowValue backGraph ['s'] (backA 0 0 0 none).flow))⟩
    have hd := discharge_push (g := backGraph) (s := ['s']) (t := ['t']) (st := backB (h + 1) h v) (n := ['b'])
      (e := ['a']) (x := 2) (hn := h + 1) (he := h) rfl rfl rfl rfl (push_back_b h v)
    unfold pStep
    rw [show (backB (h + 1) h v).excess.get? ['b'] = some 1 from rfl]
    simp only [gt_iff_lt, zero_lt_one, if_true, hd]
    rfl
  | three h v =>
    refine ⟨['b'], _, rfl, ?_, Back.four h (some (flowValue backGraph ['s'] (backA 0 0 0 none).flow))⟩
    unfold pStep
    rw [show (backA 0 (h + 1) h v).excess.get? ['b'] = some 0 from rfl]
    simp only [gt_iff_lt, lt_irrefl, if_false]
    rfl
  | four h v =>
    refine ⟨['a'], _, rfl, ?_, Back.five (h + 1) (some (flowValue backGraph ['s'] (backA 0 0 0 none).flow))⟩
    have hd := discharge_relabel (g := backGraph) (s := ['s']) (t := ['t']) (st := backA 1 (h + 1) h v) (n := ['a'])
      (e := ['b']) (x := 1) (hn := h) (he := h + 1) rfl rfl rfl (by omega)
    unfold pStep
    rw [show (backA 1 (h + 1) h v).excess.get? ['a'] = some 1 from rfl]
    simp only [gt_iff_lt, zero_lt_one, if_true, hd]
    rfl
  | five h v =>
    refine ⟨['b'], _, rfl, ?_, Back.six h (some (flowValue backGraph ['s'] (backA 0 0 0 none).flow))⟩
    unfold pStep
    rw [show (backA 0 h (h + 1) v).excess.get? ['b'] = some 0 from rfl]
    simp only [gt_iff_lt, lt_irrefl, if_false]
    rfl
  | six h v =>
    refine ⟨['a'], _, rfl, ?_, Back.one h (some (flowValue backGraph ['s'] (backB 0 0 none).flow))⟩
    have hd := discharge_push (g := backGraph) (s := ['s']) (t := ['t']) (st := backA 1 h (h + 1) v) (n := ['a'])
      (e := ['b']) (x := 1) (hn := h + 1) (he := h) rfl rfl rfl rfl (push_back_a h v)
    unfold pStep
    rw [show (backA 1 h (h + 1) v).excess.get? ['a'] = some 1 from rfl]
    simp only [gt_iff_lt, zero_lt_one, if_true, hd]
    rfl

theorem backGraph_forever (fuel : ℕ) : ∀ st, Back st →
    pLoop backGraph ['s'] ['t'] [['b'], ['a']] fuel st = .error .notTerminated := by
  induction fuel with
  | zero => intro st _; rfl
  | succ f ih =>
    intro st hst
    obtain ⟨n, st', h1, h2, h3⟩ := backGraph_step st hst
    unfold pLoop
    simp only [h1, h2]
    exact ih st' h3

deriving instance DecidableEq for PState

/-- Several iterations of the main loop, while there is a node to look at. -/
def pStepN (g : Digraph) (s t : Name) (nodes : List Name) : ℕ → PState → Option PState
  | 0, st => some st
  | k + 1, st =>
    match nodes[st.index]? with
    | none => none
    | some n =>
      match pStep g s t nodes st n with
      | .error _ => none
      | .ok st' => pStepN g s t nodes k st'

theorem pLoop_stepN {g : Digraph} {s t : Name} {nodes : List Name} {k : ℕ} {st st' : PState}
    (h : pStepN g s t nodes k st = some st') (fuel : ℕ) :
    (∃ f, pLoop g s t nodes fuel st = pLoop g s t nodes f st') ∨
      pLoop g s t nodes fuel st = .error .notTerminated := by
  induction k generalizing st fuel with
  | zero => cases h; exact Or.inl ⟨fuel, rfl⟩
  | succ k ih =>
    cases fuel with
    | zero => exact Or.inr rfl
    | succ f =>
      unfold pStepN at h
      cases h1 : nodes[st.index]? with
      | none => simp only [h1] at h; cases h
      | some n =>
        simp only [h1] at h
        cases h2 : pStep g s t nodes st n with
        | error e => simp only [h2] at h; cases h
        | ok st1 =>
          simp only [h2] at h
          have e : pLoop g s t nodes (f + 1) st = pLoop g s t nodes f st1 := by
            rw [pLoop]
            simp only [h1, h2]
          rw [e]
          exact ih h f

/-- C14 is false with opposite arcs: on a digraph with four arcs and capacities at most 3 (and maximum flow 1)
`preflow_push` never ends. One unit of excess that cannot return to the source is pushed to and fro between two nodes,
the height of which grows for ever. -/
theorem C14_endless_wrong : ctor [] (arcs1 backArcs) [] = .ok backGraph ∧
    ∀ fuel, preflowPush fuel backGraph ['s'] ['t'] = .error .notTerminated := by
  refine ⟨by decide +kernel, fun fuel => ?_⟩
  unfold preflowPush
  rw [show checkEnds backGraph ['s'] ['t'] = none by decide +kernel]
  have hn : innerNodes backGraph ['s'] ['t'] = [['b'], ['a']] := by decide +kernel
  cases hi : pInit backGraph ['s'] ['t'] with
  | error e =>
    have : (pInit backGraph ['s'] ['t']).toOption.isSome = true := by decide +kernel
    rw [hi] at this; cases this
  | ok st =>
    have hk : (pInit backGraph ['s'] ['t']).toOption.bind (pStepN backGraph ['s'] ['t'] [['b'], ['a']] 9) =
        some (backB 5 6 (some 2)) := by decide +kernel
    rw [hi] at hk
    simp only [hn]
    have : pLoop backGraph ['s'] ['t'] [['b'], ['a']] fuel st = .error .notTerminated := by
      rcases pLoop_stepN hk fuel with ⟨f, hf⟩ | hf
      · rw [hf]; exact backGraph_forever f _ (Back.one 5 _)
      · exact hf
    rw [this]

/-! ### `KeyError` -/

/-- The digraph with three arcs, two of them opposite. -/
def stuckGraph : Digraph :=
  (ctor [] (arcs1 [('s', 't', 1), ('s', 'a', 3), ('a', 's', 2)]) []).toOption.getD ⟨[], [], []⟩

/-- C14 is false with opposite arcs in another way: `KeyError` when the excess that cannot return to the source is at a
node that has no residual arc left. -/
theorem C14_crash_wrong : ctor [] (arcs1 [('s', 't', 1), ('s', 'a', 3), ('a', 's', 2)]) [] = .ok stuckGraph ∧
    preflowPush 100 stuckGraph ['s'] ['t'] = .error .keyError := by
  refine ⟨by decide +kernel, ?_⟩
  have h : (match preflowPush 100 stuckGraph ['s'] ['t'] with
    | .error e => some e
    | .ok _ => none) = some PyErr.keyError := by decide +kernel
  cases hr : preflowPush 100 stuckGraph ['s'] ['t'] with
  | error e => rw [hr] at h; cases h; rfl
  | ok p => rw [hr] at h; cases h

/-- One path and a third inner node without arcs whose name consists of the names of two nodes. -/
def pairGraph : Digraph :=
  (ctor [] (arcs1 [('s', 'a', 1), ('a', 't', 1)]) [(['a', 'b'], 0)]).toOption.getD ⟨[], [], []⟩

/-- C14 is false for longer names: `KeyError`, since the isolated node `ab` is believed to have the excess of `a`. -/
theorem C14_name_wrong : ctor [] (arcs1 [('s', 'a', 1), ('a', 't', 1)]) [(['a', 'b'], 0)] = .ok pairGraph ∧
    preflowPush 100 pairGraph ['s'] ['t'] = .error .keyError := by
  refine ⟨by decide +kernel, ?_⟩
  have h : (match preflowPush 100 pairGraph ['s'] ['t'] with
    | .error e => some e
    | .ok _ => none) = some PyErr.keyError := by decide +kernel
  cases hr : preflowPush 100 pairGraph ['s'] ['t'] with
  | error e => rw [hr] at h; cases h; rfl
  | ok p => rw [hr] at h; cases h

/-! ### Longer names -/

/-- A path over a node with a name of two characters. -/
def innerArcs : List (Arc × ℚ) := [((['s'], ['a', 'a']), 1), ((['a', 'a'], ['t']), 1)]

/-- The digraph with the arcs `innerArcs`. -/
def innerGraph : Digraph := (ctor [] innerArcs []).toOption.getD ⟨[], [], []⟩

/-- C12 is false for longer names: what is returned is not conserved at the inner node. -/
theorem C12_name_wrong : ctor [] innerArcs [] = .ok innerGraph ∧
    ∃ f, preflowPush 10 innerGraph ['s'] ['t'] = .ok (1, f) ∧ ¬ Feasible innerGraph ['s'] ['t'] (fl f) := by
  refine ⟨by decide +kernel, [((['s'], ['a', 'a']), 1), ((['a', 'a'], ['t']), 0)], by decide +kernel, fun h => ?_⟩
  have := h.cons ['a', 'a'] (by decide +kernel) (by decide) (by decide)
  revert this
  decide +kernel

end Props
end Pytimize
