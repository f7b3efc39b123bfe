/-
Matrices of zeros and ones with at most one one per row on each side of a partition of the columns are totally
unimodular; so the program of the stable sets of a bipartite graph is.
-/
import Verif.Float.Unimodular
import Verif.Graph.StableSet

namespace Pytimize
namespace Floating
open Matrix LinProg

/-- A square matrix of this kind has determinant 0, 1 or -1. -/
theorem bipartite_det : ∀ (k : ℕ) (N : Matrix (Fin k) (Fin k) ℚ) (side : Fin k → Bool),
    (∀ i j, N i j = 0 ∨ N i j = 1) → (∀ i a b, N i a = 1 → N i b = 1 → side a = side b → a = b) →
    IntUpTo 1 N.det := by
  intro k
  induction k with
  | zero => intro N _ _ _; exact ⟨1, by simp, by norm_num⟩
  | succ k ih =>
    intro N side h01 hone
    by_cases hall : ∀ i s, ∃ j, N i j = 1 ∧ side j = s
    · have h0 : N.det = 0 := by
        rw [← exists_mulVec_eq_zero_iff]
        refine ⟨fun j => if side j then 1 else -1, ?_, ?_⟩
        · intro h
          have := congrFun h 0
          simp only [Pi.zero_apply] at this
          split at this <;> norm_num at this
        · funext i
          obtain ⟨a, ha, sa⟩ := hall i true
          obtain ⟨b, hb, sb⟩ := hall i false
          have hab : a ≠ b := by rintro rfl; rw [sa] at sb; cases sb
          have hz : ∀ j, j ≠ a → j ≠ b → N i j = 0 := by
            intro j h1 h2
            rcases h01 i j with h | h
            · exact h
            · cases hs : side j
              · exact absurd (hone i j b h hb (hs.trans sb.symm)) h2
              · exact absurd (hone i j a h ha (hs.trans sa.symm)) h1
          rw [mulVec, dotProduct, Finset.sum_eq_add a b hab]
          · simp [ha, hb, sa, sb]
          · intro j _ hj
            rw [hz j hj.1 hj.2, zero_mul]
          · simp
          · simp
      exact ⟨0, by simp [h0], by norm_num⟩
    · push Not at hall
      obtain ⟨i, s, hs⟩ := hall
      by_cases hz : ∀ j, N i j = 0
      · exact ⟨0, by simp [det_eq_zero_of_row_eq_zero i hz], by norm_num⟩
      · push Not at hz
        obtain ⟨j, hj⟩ := hz
        have hj1 := (h01 i j).resolve_left hj
        have hother : ∀ j', j' ≠ j → N i j' = 0 := by
          intro j' hne
          rcases h01 i j' with h | h
          · exact h
          · have h1 := hs j hj1
            have h2 := hs j' h
            refine absurd (hone i j' j h hj1 ?_) hne
            revert h1 h2
            cases side j <;> cases side j' <;> cases s <;> simp
        rw [det_succ_row N i, Finset.sum_eq_single j]
        · obtain ⟨q, h1, h2⟩ := ih (N.submatrix i.succAbove j.succAbove) (side ∘ j.succAbove) (fun _ _ => h01 _ _)
            fun r a b ha hb hab => Fin.succAbove_right_injective (hone _ _ _ ha hb hab)
          rw [h1, hj1, mul_one]
          rcases neg_one_pow_eq_or ℚ ((i : ℕ) + (j : ℕ)) with h | h <;> rw [h]
          · exact ⟨q, by simp, h2⟩
          · exact ⟨-q, by simp, by rwa [abs_neg]⟩
        · intro j' _ hne
          rw [hother j' hne]
          ring
        · simp

theorem bipartite_tu {ι κ : Type*} {A : Matrix ι κ ℚ} (side : κ → Bool) (h01 : ∀ i j, A i j = 0 ∨ A i j = 1)
    (hone : ∀ i a b, A i a = 1 → A i b = 1 → side a = side b → a = b) : A.IsTotallyUnimodular := by
  intro k f g _ hg
  rw [sign_upTo]
  exact bipartite_det k _ (side ∘ g) (fun _ _ => h01 _ _) fun i a b ha hb hab => hg (hone _ _ _ ha hb hab)

end Floating

namespace Undirected
open _root_.Pytimize.Directed (Name)

/-- What a row of the program looks like. -/
theorem ss_row {g : Ugraph} (i : Fin (ssRows g).length) :
    (∃ e ∈ g.edges.keys, ∀ j, (ssLP g).A i j = if (j : ℕ) = col g e.1 ∨ (j : ℕ) = col g e.2 then 1 else 0) ∨
      ∃ k, ∀ j, (ssLP g).A i j = if (j : ℕ) = k then 1 else 0 := by
  have hr : (ssRows g)[i] ∈ ssRows g := List.getElem_mem i.2
  have e : ∀ j, (ssLP g).A i j = (((ssRows g)[i])[(j : ℕ)]?).getD 0 := fun j => rfl
  simp only [e]
  generalize (ssRows g)[i] = r at hr
  unfold ssRows at hr
  rcases List.mem_append.mp hr with hr | hr
  · obtain ⟨e, he, rfl⟩ := List.mem_map.mp hr
    exact .inl ⟨e, he, fun j => by rw [unitRow_get _ j.2]; simp⟩
  · obtain ⟨k, _, rfl⟩ := List.mem_map.mp hr
    exact .inr ⟨k, fun j => by rw [unitRow_get _ j.2]; simp⟩

/-- If the vertices can be coloured with two colours so that edges join different colours, the program is totally
unimodular. -/
theorem ss_tu {g : Ugraph} (hW : Weak g) (colour : Name → Bool)
    (hc : ∀ e ∈ g.edges.keys, colour e.1 ≠ colour e.2) : (ssLP g).A.IsTotallyUnimodular := by
  refine Floating.bipartite_tu (fun j => (g.vertices.keys[(j : ℕ)]?).elim false colour) (fun i j => ?_) fun i a b ha hb hs => ?_
  · rcases ss_row i with ⟨e, -, h⟩ | ⟨k, h⟩ <;> rw [h] <;> split <;> simp
  · rcases ss_row i with ⟨e, he, h⟩ | ⟨k, h⟩
    · have hends := hW.ends _ _ he
      have side : ∀ v ∈ g.vertices.keys, ∀ j : Fin (mapping g).length, (j : ℕ) = col g v →
          (g.vertices.keys[(j : ℕ)]?).elim false colour = colour v := by
        intro v hv j hj
        rw [hj, keys_col hv]
        rfl
      rw [h] at ha hb
      have ha' : (a : ℕ) = col g e.1 ∨ (a : ℕ) = col g e.2 := by by_contra h; simp [h] at ha
      have hb' : (b : ℕ) = col g e.1 ∨ (b : ℕ) = col g e.2 := by by_contra h; simp [h] at hb
      rcases ha' with ha' | ha' <;> rcases hb' with hb' | hb'
      · exact Fin.ext (ha'.trans hb'.symm)
      · rw [side _ hends.1 a ha', side _ hends.2 b hb'] at hs
        exact absurd hs (hc e he)
      · rw [side _ hends.2 a ha', side _ hends.1 b hb'] at hs
        exact absurd hs.symm (hc e he)
      · exact Fin.ext (ha'.trans hb'.symm)
    · rw [h] at ha hb
      have ha' : (a : ℕ) = k := by by_contra h; simp [h] at ha
      have hb' : (b : ℕ) = k := by by_contra h; simp [h] at hb
      exact Fin.ext (ha'.trans hb'.symm)

end Undirected
end Pytimize
