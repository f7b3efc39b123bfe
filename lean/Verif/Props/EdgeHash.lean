/-
Property C120: the hash of an edge of an undirected graph.
-/
import Verif.Graph.EdgeHash
import Verif.Graph.UndirectedBuild

namespace Pytimize
namespace Props
open _root_.Pytimize.Undirected
open _root_.Pytimize.Directed (Name)

theorem hashEdge_eq (e : Edge) : hashEdge e = (norm e).1 ++ '-' :: (norm e).2 := by
  obtain ⟨a, b⟩ := e
  simp only [hashEdge, norm]

/-- Two texts joined by a character that occurs in neither are determined by the result. -/
theorem join_inj {c : Char} : ∀ {a b x y : List Char}, c ∉ a → c ∉ x → a ++ c :: b = x ++ c :: y → a = x ∧ b = y
  | [], b, [], y, _, _, h => by simpa using h
  | [], b, d :: x, y, _, hx, h => by
    simp only [List.nil_append, List.cons_append, List.cons.injEq] at h
    exact absurd h.1 (fun he => hx (he ▸ List.mem_cons_self))
  | d :: a, b, [], y, ha, _, h => by
    simp only [List.nil_append, List.cons_append, List.cons.injEq] at h
    exact absurd h.1.symm (fun he => ha (he ▸ List.mem_cons_self))
  | d :: a, b, f :: x, y, ha, hx, h => by
    simp only [List.cons_append, List.cons.injEq] at h
    obtain ⟨rfl, h⟩ := h
    obtain ⟨rfl, rfl⟩ := join_inj (fun m => ha (List.mem_cons_of_mem _ m)) (fun m => hx (List.mem_cons_of_mem _ m)) h
    exact ⟨rfl, rfl⟩

theorem prefix_lt : ∀ x y : List Char, x < x ++ '-' :: y
  | [], y => by simp
  | c :: x, y => by simpa using prefix_lt x y

/-- C120 (order). The hash does not depend on the order of the two vertices, and it is the two names in one
of the two orders, joined by `-`. -/
theorem C120_order (a b : Name) : hashEdge (a, b) = hashEdge (b, a) ∧
    (a ≤ b → hashEdge (a, b) = a ++ ['-'] ++ b) := by
  refine ⟨by rw [hashEdge_eq, hashEdge_eq, norm_swap], fun h => ?_⟩
  rw [hashEdge_eq, norm, if_neg (by exact not_lt.mpr h)]
  simp

/-- C120, the part that holds: different edges have different hashes as long as no name contains `-`. Not
proved, because it is false (`C120_distinct_wrong`): the same for all names. -/
theorem C120_distinct_partial {a b c d : Name} (ha : '-' ∉ a) (hb : '-' ∉ b) (hc : '-' ∉ c) (hd : '-' ∉ d) :
    hashEdge (a, b) = hashEdge (c, d) ↔ s(a, b) = s(c, d) := by
  rw [← norm_eq_norm_iff, hashEdge_eq, hashEdge_eq]
  refine ⟨fun h => ?_, fun h => by rw [h]⟩
  have h1 : ∀ {u v : Name}, '-' ∉ u → '-' ∉ v → '-' ∉ (norm (u, v)).1 := fun hu hv => by
    unfold norm; split <;> assumption
  obtain ⟨e1, e2⟩ := join_inj (h1 ha hb) (h1 hc hd) h
  exact Prod.ext e1 e2

/-- Every name can be cut at a `-` so that two edges share a hash: the edges `x-y, z` and `x, y-z`, if the
names are in order. -/
theorem C120_distinct_wrong {x y z : Name} (h1 : x ++ ['-'] ++ y ≤ z) (h2 : x ≤ y ++ ['-'] ++ z) :
    hashEdge (x ++ ['-'] ++ y, z) = hashEdge (x, y ++ ['-'] ++ z) ∧
      s(x ++ ['-'] ++ y, z) ≠ s(x, y ++ ['-'] ++ z) := by
  refine ⟨?_, fun h => ?_⟩
  · rw [(C120_order _ _).2 h1, (C120_order _ _).2 h2]; simp
  · rcases Sym2.eq_iff.mp h with ⟨h, -⟩ | ⟨h, h'⟩
    · have := congrArg List.length h; simp at this
    · rw [h'] at h1
      exact absurd h1 (not_le.mpr (by simpa using prefix_lt x y))

/-- The hypotheses of `C120_distinct_wrong`: the edges `a-b, c` and `a, b-c`. -/
example : hashEdge ("a-b".toList, "c".toList) = hashEdge ("a".toList, "b-c".toList) :=
  (C120_distinct_wrong (x := ['a']) (y := ['b']) (z := ['c']) (by decide) (by decide)).1

example : hashEdge ("b".toList, "a".toList) = "a-b".toList := by decide +kernel

/-- The hypotheses of `C120_distinct_partial`. -/
example : hashEdge (['a'], ['b']) ≠ hashEdge (['a'], ['c']) := fun h =>
  absurd ((C120_distinct_partial (by decide) (by decide) (by decide) (by decide)).mp h) (by decide)

end Props
end Pytimize
