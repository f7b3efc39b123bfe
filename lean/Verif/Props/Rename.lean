/-
Property C123: the names of the nodes do not matter.
-/
import Verif.Graph.RenameBuild
import Verif.Props.MaxFlow

namespace Pytimize.Props
open _root_.Pytimize.Directed

/-- C123, replacing letters: building a digraph with the letters of all names replaced gives the digraph with the
letters replaced, and every later call too, with the same exceptions. -/
theorem C123_letters_build {σ : Char → Char} (hσ : Function.Injective σ) :
    (∀ graph arcs nodes, ctor (graph.map fun p => (p.1.map σ, p.2.map (List.map σ)))
      (arcs.map fun p => (renArc (List.map σ) p.1, p.2)) (nodes.map fun p => (p.1.map σ, p.2)) =
        (ctor graph arcs nodes).map (renGraph (List.map σ))) ∧
    (∀ g o, step (renGraph (List.map σ) g) (renOp (List.map σ) o) =
      (renGraph (List.map σ) (step g o).1, (step g o).2)) ∧
    ∀ g ops, run (renGraph (List.map σ) g) (ops.map (renOp (List.map σ))) = renGraph (List.map σ) (run g ops) := by
  have hi : Function.Injective (List.map σ) := List.map_injective_iff.mpr hσ
  have hc := fun (a : Arc) (g : Digraph) => And.intro (cutRen_letters hσ g a.1) (cutRen_letters hσ g a.2)
  exact ⟨ctor_ren hi, fun g o => step_ren hi g o fun a _ g => hc a g, fun g ops => run_ren hi ops g fun a _ g => hc a g⟩

/-- C123, replacing letters: both flow methods return the same value, or raise the same exception, and the flow with
the letters of its arcs replaced; with every digraph, every source and sink and any number of iterations. -/
theorem C123_letters_flow {σ : Char → Char} (hσ : Function.Injective σ) (g : Digraph) (s t : Name) (fuel : ℕ) :
    fordFulkerson fuel (renGraph (List.map σ) g) (s.map σ) (t.map σ) =
      (fordFulkerson fuel g s t).map (fun p => (p.1, renFlow (List.map σ) p.2)) ∧
    preflowPush fuel (renGraph (List.map σ) g) (s.map σ) (t.map σ) =
      (preflowPush fuel g s t).map (fun p => (p.1, renFlow (List.map σ) p.2)) := by
  have hi : Function.Injective (List.map σ) := List.map_injective_iff.mpr hσ
  refine ⟨?_, preflowPush_ren hi fuel (fun v _ => cutRen_letters hσ g v) s t⟩
  rw [fordFulkerson_ren hi]
  unfold fordFulkerson
  cases checkEnds g s t with
  | some e => rfl
  | none =>
    cases computeResidual g (zeroFlow g) with
    | error e => rfl
    | ok r =>
      simp only
      cases ffLoop g s t fuel (zeroFlow g) r with
      | error e => rfl
      | ok f => simp [Except.map, flowValue_ren hi (cutRen_letters hσ g s)]

/-- C123, any renaming: digraphs are built alike; removal of isolated end points is excluded, which asks for the
degrees by name (`C07_name_wrong`). -/
theorem C123_any_build_partial {ρ : Name → Name} (hρ : Function.Injective ρ) :
    (∀ graph arcs nodes, ctor (graph.map fun p => (ρ p.1, p.2.map ρ)) (arcs.map fun p => (renArc ρ p.1, p.2))
      (nodes.map fun p => (ρ p.1, p.2)) = (ctor graph arcs nodes).map (renGraph ρ)) ∧
    ∀ g o, (∀ a, o ≠ .removeArc a true) →
      step (renGraph ρ g) (renOp ρ o) = (renGraph ρ (step g o).1, (step g o).2) :=
  ⟨ctor_ren hρ, fun g o ho => step_ren hρ g o fun a ha => absurd ha (ho a)⟩

/-- C123, any renaming: `ford_fulkerson` finds the same flow up to the names or raises the same exception. The value
is missing, see `C123_value_wrong`. -/
theorem C123_any_flow_partial {ρ : Name → Name} (hρ : Function.Injective ρ) (g : Digraph) (s t : Name) (fuel : ℕ) :
    (fordFulkerson fuel (renGraph ρ g) (ρ s) (ρ t)).map Prod.snd =
      (fordFulkerson fuel g s t).map fun p => renFlow ρ p.2 := by
  rw [fordFulkerson_ren hρ]
  cases fordFulkerson fuel g s t <;> rfl

/-- C123, names of one letter: any renaming of them to names of one letter keeps the values too. -/
theorem C123_one_letter_partial {ρ : Name → Name} (hρ : Function.Injective ρ) {g : Digraph}
    (h1 : ∀ v ∈ g.nodes.keys, v.length = 1 ∧ (ρ v).length = 1) (s t : Name) (fuel : ℕ) :
    fordFulkerson fuel (renGraph ρ g) (ρ s) (ρ t) =
      (fordFulkerson fuel g s t).map (fun p => (p.1, renFlow ρ p.2)) ∧
    preflowPush fuel (renGraph ρ g) (ρ s) (ρ t) =
      (preflowPush fuel g s t).map (fun p => (p.1, renFlow ρ p.2)) := by
  have hc : ∀ v ∈ g.nodes.keys, CutRen ρ g v := fun v hv => cutRen_single hρ (h1 v hv).1 (h1 v hv).2
  refine ⟨?_, preflowPush_ren hρ fuel hc s t⟩
  rw [fordFulkerson_ren hρ]
  unfold fordFulkerson
  cases he : checkEnds g s t with
  | some e => rfl
  | none =>
    have hs : s ∈ g.nodes.keys := by
      by_contra hn
      have : hasNode g s = false := Dict.has_eq_false_iff.mpr hn
      simp [checkEnds, this] at he
    cases computeResidual g (zeroFlow g) with
    | error e => rfl
    | ok r =>
      simp only
      cases ffLoop g s t fuel (zeroFlow g) r with
      | error e => rfl
      | ok f => simp [Except.map, flowValue_ren hρ (hc s hs)]

/-- C123 is false for other renamings, and always so: if no node has a name of exactly one letter, then
`ford_fulkerson` reports the value zero whatever flow it finds, and `preflow_push` the zero flow, whatever the
maximum flow is. -/
theorem C123_value_wrong {g : Digraph} (hg : DWF g) (hlong : ∀ v ∈ g.nodes.keys, v.length ≠ 1)
    (hcap : ∀ a c, g.arcs.get? a = some c → 0 ≤ c) {s t : Name} (hs : s ∈ g.nodes.keys) (ht : t ∈ g.nodes.keys)
    (hst : s ≠ t) :
    (∀ fuel v f, fordFulkerson fuel g s t = .ok (v, f) → v = 0) ∧
    ((∃ w ∈ g.nodes.keys, w ≠ s ∧ w ≠ t) → ∀ fuel, g.nodes.length ≤ fuel →
      preflowPush fuel g s t = .ok (0, g.arcs.map fun p => (p.1, 0))) := by
  have ha1 : ∀ a ∈ g.arcs.keys, a.1.length ≠ 1 := fun a ha => hlong _ (hg.endsTail a.1 a.2 ha)
  have ha2 : ∀ a ∈ g.arcs.keys, a.2.length ≠ 1 := fun a ha => hlong _ (hg.endsHead a.1 a.2 ha)
  have hcut : ∀ v, cut g (.name v) = [] ∧ ncut g (.name v) = [] := fun v => ⟨cut_long ha1 v, ncut_long ha2 v⟩
  have hval : ∀ f, flowValue g s f = 0 := by
    intro f
    unfold flowValue
    rw [(hcut s).1, (hcut s).2]
    simp [sumFlow]
  constructor
  · intro fuel v f h
    unfold fordFulkerson at h
    split at h
    · cases h
    · split at h
      · cases h
      · split at h
        · cases h
        · cases h; exact hval _
  · rintro ⟨w, hw, hws, hwt⟩ fuel hf
    have hce : checkEnds g s t = none := by rw [checkEnds_eq, if_pos ⟨hs, ht, hst⟩]
    have hz : initFlow g s = zeroFlow g := by
      unfold initFlow zeroFlow
      rw [(hcut s).1]
      simp
    obtain ⟨r, hr⟩ : ∃ r, computeResidual g (zeroFlow g) = .ok r :=
      resLoop_zero (zeroFlow_get? g) _ _ fun p hp => hcap p.1 p.2 (Dict.get?_of_mem hg.arcsWF hp)
    have hlen : (innerNodes g s t).length < g.nodes.length := by
      have h1 : g.nodes.length = g.nodes.keys.length := by simp [Dict.keys]
      rw [h1]
      unfold innerNodes
      apply List.length_filter_lt_length_iff_exists.mpr
      exact ⟨s, hs, by simp⟩
    have hpos : 0 < (innerNodes g s t).length := List.length_pos_of_mem (mem_inner.mpr ⟨hw, hws, hwt⟩)
    have hloop := pLoop_idle (g := g) (s := s) (t := t) (innerNodes g s t) (innerNodes g s t).length fuel
      ⟨0, initExcess g s t (zeroFlow g), zeroFlow g, r, initHeight g s, none⟩ (by simp) hpos (by omega)
      (initExcess_zero s t _ hcut)
    unfold preflowPush pInit
    simp only [hce, hz, hr, hloop, hval]
    rfl

/-- The name written twice. -/
def twice (v : Name) : Name := v ++ v

theorem twice_inj : Function.Injective twice := by
  intro a b h
  have hl : a.length = b.length := by
    have := congrArg List.length h
    simp only [twice, List.length_append] at this
    omega
  exact (List.append_inj h hl).1

/-- A digraph with maximum flow 13/3 for which `preflow_push` returns zero after every name is written twice. -/
theorem C123_twice_wrong : (∀ v ∈ okGraph.nodes.keys, v.length = 1) ∧
    preflowPush 100 (renGraph twice okGraph) ['s', 's'] ['t', 't'] =
      .ok (0, (renGraph twice okGraph).arcs.map fun p => (p.1, 0)) ∧
    (preflowPush 100 okGraph ['s'] ['t']).toOption.map Prod.fst = some (13 / 3) := by
  refine ⟨by decide +kernel, ?_, by decide +kernel⟩
  have hctor := ctor_ren twice_inj [] (arcs1 okArcs) []
  rw [okGraph_ctor] at hctor
  have hcap : ∀ p ∈ (renGraph twice okGraph).arcs, 0 ≤ p.2 := by decide +kernel
  exact (C123_value_wrong (g := renGraph twice okGraph) (ctor_spec hctor) (by decide +kernel)
    (fun a c h => hcap (a, c) (Dict.mem_of_get? h)) (by decide +kernel) (by decide +kernel)
    (by decide +kernel)).2 ⟨['a', 'a'], by decide +kernel, by decide +kernel, by decide +kernel⟩ 100 (by decide +kernel)

example : preflowPush 100 (renGraph (List.map (Equiv.swap 'a' 's')) okGraph) ['a'] ['t'] =
    (preflowPush 100 okGraph ['s'] ['t']).map (fun p => (p.1, renFlow (List.map (Equiv.swap 'a' 's')) p.2)) :=
  (C123_letters_flow (Equiv.swap 'a' 's').injective okGraph ['s'] ['t'] 100).2

example : fordFulkerson 100 (renGraph (List.map (Equiv.swap 'b' 'x')) okGraph) ['s'] ['t'] =
    (fordFulkerson 100 okGraph ['s'] ['t']).map (fun p => (p.1, renFlow (List.map (Equiv.swap 'b' 'x')) p.2)) :=
  (C123_one_letter_partial (List.map_injective_iff.mpr (Equiv.swap 'b' 'x').injective) (g := okGraph)
    (fun v hv => by
      have h1 : ∀ v ∈ okGraph.nodes.keys, v.length = 1 := by decide +kernel
      exact ⟨h1 v hv, by rw [List.length_map]; exact h1 v hv⟩) ['s'] ['t'] 100).1

end Pytimize.Props
