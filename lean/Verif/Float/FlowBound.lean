/-
Bounds on the flow of `preflow_push` that hold however the arithmetic rounds.
-/
import Verif.Float.Flow

namespace Pytimize
namespace Floating
open _root_.Pytimize.Directed

/-- What an entry of the residual network says about the arc, as stored after rounding. -/
def EntryOk (R : Rounding) (arcs : Dict Arc ℚ) (flow : Flow) (u v : Name) (x : ℚ) : Prop :=
  (∃ c, arcs.get? (u, v) = some c ∧ x = R.rd (c - fl flow (u, v))) ∨
  (∃ c, arcs.get? (v, u) = some c ∧ x = fl flow (v, u) ∧ 0 < x)

/-- Invariant: the flow on an arc of capacity `c` is a float between `0` and `M c`. -/
structure FInv (R : Rounding) (M : ℚ → ℚ) (g : Digraph) (flow : Flow) (r : Resid) : Prop where
  keys : flow.keys = g.arcs.keys
  rwf : RWF r
  res : ∀ u v x, lookup r u v = some x → EntryOk R g.arcs flow u v x
  nonneg : ∀ a c, g.arcs.get? a = some c → 0 ≤ fl flow a
  rep : ∀ a c, g.arcs.get? a = some c → R.Rep (fl flow a)
  bound : ∀ a c, g.arcs.get? a = some c → fl flow a ≤ M c

/-- What is needed of the bound: filling an arc to its capacity stays below it. -/
structure FillOk (R : Rounding) (M : ℚ → ℚ) (c : ℚ) : Prop where
  cap : R.Rep c ∧ 0 ≤ c ∧ c ≤ M c
  fill : ∀ f, R.Rep f → 0 ≤ f → f ≤ c → R.rd (f + R.rd (c - f)) ≤ M c

variable {R : Rounding} {M : ℚ → ℚ} {g : Digraph}

theorem entry_set {arcs : Dict Arc ℚ} {flow : Flow} {u v p q : Name} {x y : ℚ} (h : EntryOk R arcs flow u v x)
    (h1 : ¬ (p = u ∧ q = v)) (h2 : ¬ (q = u ∧ p = v)) : EntryOk R arcs (flow.set (p, q) y) u v x := by
  rcases h with ⟨c, a, b⟩ | ⟨c, a, b, d⟩
  · refine Or.inl ⟨c, a, ?_⟩
    rw [fl_set, if_neg (fun hc => h1 (by cases hc; exact ⟨rfl, rfl⟩))]
    exact b
  · refine Or.inr ⟨c, a, ?_, d⟩
    rw [fl_set, if_neg (fun hc => h2 (by cases hc; exact ⟨rfl, rfl⟩))]
    exact b

/-- The flow of one arc replaced by `f'` and its two residual entries rewritten. -/
theorem FInv.update (hg : DWF g) {flow : Flow} {r : Resid} (h : FInv R M g flow r) {u v : Name} {c f' : ℚ}
    (hc : g.arcs.get? (u, v) = some c) (h0 : 0 ≤ f') (hrep : R.Rep f') (hM : f' ≤ M c) {r' : Resid}
    (hr : updRes r u v (R.rd (c - f')) f' = .ok r') : FInv R M g (flow.set (u, v) f') r' := by
  have hm := Dict.mem_keys_of_get? hc
  have hne : u ≠ v := hg.noLoop u v hm
  obtain ⟨r'', u1, u2, u3⟩ := updRes_spec h.rwf hne (R.rd (c - f')) f'
  rw [hr] at u1
  cases u1
  have hmf : (u, v) ∈ flow.keys := h.keys ▸ hm
  refine ⟨by rw [keys_set_eq hmf, h.keys], u2, ?_, ?_, ?_, ?_⟩
  · intro a b x hx
    rw [u3] at hx
    by_cases h1 : u = a ∧ v = b
    · obtain ⟨rfl, rfl⟩ := h1
      rw [if_pos ⟨rfl, rfl⟩] at hx
      split at hx
      · cases hx
      · cases hx
        refine Or.inl ⟨c, hc, ?_⟩
        rw [fl_set, if_pos rfl]
    · rw [if_neg h1] at hx
      by_cases h2 : v = a ∧ u = b
      · obtain ⟨rfl, rfl⟩ := h2
        rw [if_pos ⟨rfl, rfl⟩] at hx
        split at hx
        · cases hx
        · rename_i hne0
          cases hx
          refine Or.inr ⟨c, hc, ?_, lt_of_le_of_ne h0 (Ne.symm hne0)⟩
          rw [fl_set, if_pos rfl]
      · rw [if_neg h2] at hx
        exact entry_set (h.res a b x hx) h1 h2
  · intro a ca ha
    rw [fl_set]; split
    · exact h0
    · exact h.nonneg a ca ha
  · intro a ca ha
    rw [fl_set]; split
    · exact hrep
    · exact h.rep a ca ha
  · intro a ca ha
    rw [fl_set]; split
    · rename_i hq; subst hq
      rw [hc] at ha; cases ha
      exact hM
    · exact h.bound a ca ha

theorem FInv.pushArc (hg : DWF g) (hna : NoAnti g.arcs) (hF : ∀ a c, g.arcs.get? a = some c → FillOk R M c) {flow : Flow}
    {r : Resid} (h : FInv R M g flow r) {node e : Name} {ex x : ℚ} (hex : 0 < ex) (hx : lookup r node e = some x)
    {p : Flow × Resid} (hp : pushArc R g.arcs flow r node e (min ex x) = .ok p) : FInv R M g p.1 p.2 := by
  unfold Floating.pushArc at hp
  by_cases hm : flow.has (node, e) = true
  · rw [if_pos hm] at hp
    have hma : (node, e) ∈ g.arcs.keys := by rw [← h.keys]; exact Dict.has_iff.mp hm
    obtain ⟨c, hc⟩ := Dict.exists_get?_of_mem hma
    obtain ⟨f, hf⟩ := Dict.exists_get?_of_mem (Dict.has_iff.mp hm)
    have hff : fl flow (node, e) = f := by simp [fl, hf]
    have hxe : x = R.rd (c - f) := by
      rcases h.res node e x hx with ⟨c', a, b⟩ | ⟨c', a, _, _⟩
      · rw [hc] at a; cases a
        rw [b, hff]
      · exact absurd (Dict.mem_keys_of_get? a) (hna _ _ hma)
    have f0 := h.nonneg _ _ hc
    have fr := h.rep _ _ hc
    have fM := h.bound _ _ hc
    rw [hff] at f0 fr fM
    obtain ⟨⟨cr, c0, cM⟩, hfill⟩ := hF _ _ hc
    simp only [hf, hc] at hp
    cases hu : updRes r node e (R.rd (c - R.rd (f + min ex x))) (R.rd (f + min ex x)) with
    | error er => rw [hu] at hp; cases hp
    | ok r' =>
      rw [hu] at hp
      cases hp
      refine h.update hg hc ?_ (Rounding.rep_rd _) ?_ hu
      · refine Rounding.rd_nonneg ?_
        rcases min_choice ex x with hmin | hmin <;> rw [hmin]
        · linarith
        · have : -f ≤ x := by
            rw [hxe]
            exact Rounding.le_rd fr.neg (by linarith)
          linarith
      · rcases le_total f c with hle | hle
        · refine le_trans (R.mono ?_) (hfill f fr f0 hle)
          rw [← hxe]
          linarith [min_le_right ex x]
        · have : x ≤ 0 := by rw [hxe]; exact Rounding.rd_nonpos (by linarith)
          refine le_trans (Rounding.rd_le fr ?_) fM
          linarith [min_le_right ex x]
  · rw [if_neg hm] at hp
    have hma : (node, e) ∉ g.arcs.keys := by rw [← h.keys]; exact fun hc => hm (Dict.has_iff.mpr hc)
    obtain ⟨c, hc, hxe, hx0⟩ : ∃ c, g.arcs.get? (e, node) = some c ∧ x = fl flow (e, node) ∧ 0 < x := by
      rcases h.res node e x hx with ⟨c', a, _⟩ | h'
      · exact absurd (Dict.mem_keys_of_get? a) hma
      · exact h'
    have hmf : (e, node) ∈ flow.keys := h.keys ▸ Dict.mem_keys_of_get? hc
    obtain ⟨f, hf⟩ := Dict.exists_get?_of_mem hmf
    have hff : fl flow (e, node) = f := by simp [fl, hf]
    have fr := h.rep _ _ hc
    have fM := h.bound _ _ hc
    rw [hff] at fr fM hxe
    have hδ0 : 0 < min ex x := lt_min hex hx0
    have hδx : min ex x ≤ x := min_le_right _ _
    simp only [hf, hc] at hp
    cases hu : updRes r e node (R.rd (c - R.rd (f - min ex x))) (R.rd (f - min ex x)) with
    | error er => rw [hu] at hp; cases hp
    | ok r' =>
      rw [hu] at hp
      cases hp
      exact h.update hg hc (Rounding.rd_nonneg (by linarith)) (Rounding.rep_rd _)
        (le_trans (Rounding.rd_le fr (by linarith)) fM) hu

theorem findAdmissible_mem {height : Dict Name ℕ} {hn : ℕ} {d : List (Name × ℚ)} {p : Name × ℚ}
    (h : findAdmissible height hn d = .ok (some p)) : p ∈ d := by
  induction d with
  | nil => cases h
  | cons q d ih =>
    obtain ⟨e, x⟩ := q
    unfold findAdmissible at h
    cases hh : height.get? e with
    | none => rw [hh] at h; cases h
    | some he =>
      simp only [hh] at h
      split at h
      · cases h; simp
      · exact List.mem_cons_of_mem _ (ih h)

theorem FInv.push (hg : DWF g) (hna : NoAnti g.arcs) (hF : ∀ a c, g.arcs.get? a = some c → FillOk R M c) {s t : Name}
    {st st' : PState} (h : FInv R M g st.flow st.residual) {node e : Name} {ex x : ℚ}
    (hex : st.excess.get? node = some ex) (hpos : 0 < ex) (hx : lookup st.residual node e = some x)
    (hp : push R g s t st node e x = .ok st') : FInv R M g st'.flow st'.residual := by
  unfold Floating.push at hp
  simp only [hex] at hp
  cases hpa : Floating.pushArc R g.arcs st.flow st.residual node e (min ex x) with
  | error er => rw [hpa] at hp; cases hp
  | ok q =>
    have := h.pushArc hg hna hF hpos hx hpa
    rw [hpa] at hp
    obtain ⟨fl', r'⟩ := q
    simp only at hp
    split at hp
    · split at hp
      · cases hp
      · cases hp; exact this
    · cases hp; exact this

theorem FInv.pStep (hg : DWF g) (hna : NoAnti g.arcs) (hF : ∀ a c, g.arcs.get? a = some c → FillOk R M c)
    {sum : Flow → List Arc → ℚ} {s t : Name}
    {st st' : PState} (h : FInv R M g st.flow st.residual) {node : Name}
    (hp : pStep R sum g s t st node = .ok st') : FInv R M g st'.flow st'.residual := by
  unfold Floating.pStep at hp
  cases hex : st.excess.get? node with
  | none => rw [hex] at hp; cases hp
  | some ex =>
    simp only [hex] at hp
    by_cases hpos : ex > 0
    · rw [if_pos hpos] at hp
      cases hd : discharge R g s t st node with
      | error er => rw [hd] at hp; cases hp
      | ok s1 =>
        rw [hd] at hp
        cases hp
        show FInv R M g s1.flow s1.residual
        unfold discharge at hd
        cases hrow : st.residual.get? node with
        | none => rw [hrow] at hd; cases hd
        | some d =>
          cases hh : st.height.get? node with
          | none => rw [hrow, hh] at hd; cases hd
          | some hn =>
            simp only [hrow, hh] at hd
            cases hfa : findAdmissible st.height hn d with
            | error er => rw [hfa] at hd; cases hd
            | ok o =>
              rw [hfa] at hd
              cases o with
              | none =>
                simp only at hd
                split at hd
                · cases hd
                · cases hd
                · cases hd; exact h
              | some p =>
                obtain ⟨e, x⟩ := p
                simp only at hd
                have hx : lookup st.residual node e = some x := by
                  unfold lookup
                  rw [hrow]
                  exact Dict.get?_of_mem (h.rwf.2 node d hrow) (findAdmissible_mem hfa)
                cases hpu : Floating.push R g s t st node e x with
                | error er => rw [hpu] at hd; cases hd
                | ok s2 =>
                  rw [hpu] at hd
                  cases hd
                  exact (h.push hg hna hF hex hpos hx hpu : FInv R M g s2.flow s2.residual)
    · rw [if_neg hpos] at hp
      cases hp
      exact h

theorem FInv.pLoop (hg : DWF g) (hna : NoAnti g.arcs) (hF : ∀ a c, g.arcs.get? a = some c → FillOk R M c)
    {sum : Flow → List Arc → ℚ} {s t : Name} {nodes : List Name} {fuel : ℕ}
    {st st' : PState} (h : FInv R M g st.flow st.residual)
    (hp : pLoop R sum g s t nodes fuel st = .ok st') : FInv R M g st'.flow st'.residual := by
  induction fuel generalizing st with
  | zero => cases hp
  | succ fuel ih =>
    unfold Floating.pLoop at hp
    cases hi : nodes[st.index]? with
    | none => rw [hi] at hp; cases hp; exact h
    | some node =>
      simp only [hi] at hp
      cases hs : Floating.pStep R sum g s t st node with
      | error er => rw [hs] at hp; cases hp
      | ok s1 =>
        rw [hs] at hp
        exact ih (h.pStep hg hna hF hs) hp

theorem FInv.resLoop (hg : DWF g) {flow : Flow} (l : Dict Arc ℚ) (hl : ∀ p ∈ l, p ∈ g.arcs) (r : Resid) (hr : RWF r)
    (he : ∀ u v x, lookup r u v = some x → EntryOk R g.arcs flow u v x) {r' : Resid}
    (h : resLoop R flow l r = .ok r') : RWF r' ∧ ∀ u v x, lookup r' u v = some x → EntryOk R g.arcs flow u v x := by
  induction l generalizing r with
  | nil => cases h; exact ⟨hr, he⟩
  | cons p l ih =>
    obtain ⟨⟨u, v⟩, c⟩ := p
    have hm := Dict.get?_of_mem hg.arcsWF (hl ((u, v), c) (by simp))
    unfold Floating.resLoop at h
    simp only at h
    split at h
    · cases h
    · refine ih (fun p hp => hl p (by simp [hp])) _ ?_ ?_ h
      · split <;> split <;> first | exact RWF_put (RWF_put hr _ _ _) _ _ _ | exact RWF_put hr _ _ _ | exact hr
      · have h1 : ∀ a b x, lookup (if c > (Dict.get? flow (u, v)).getD 0 then
            put r u v (R.rd (c - (Dict.get? flow (u, v)).getD 0)) else r) a b = some x →
            EntryOk R g.arcs flow a b x := by
          intro a b x hx
          split at hx
          · rw [lookup_put] at hx
            split at hx
            · rename_i hq
              obtain ⟨rfl, rfl⟩ := hq
              cases hx
              exact Or.inl ⟨c, hm, rfl⟩
            · exact he a b x hx
          · exact he a b x hx
        intro a b x hx
        split at hx
        · rename_i hpos
          rw [lookup_put] at hx
          split at hx
          · rename_i hq
            obtain ⟨rfl, rfl⟩ := hq
            cases hx
            exact Or.inr ⟨c, hm, rfl, hpos⟩
          · exact h1 a b x hx
        · exact h1 a b x hx

/-- The bounds hold for every flow that is returned. -/
theorem preflowPush_bound (hg : DWF g) (hna : NoAnti g.arcs) (hF : ∀ a c, g.arcs.get? a = some c → FillOk R M c)
    {sum : Flow → List Arc → ℚ} {s t : Name} {fuel : ℕ} {v : ℚ} {f : Flow}
    (h : preflowPush R sum fuel g s t = .ok (v, f)) :
    f.keys = g.arcs.keys ∧ ∀ a c, g.arcs.get? a = some c → 0 ≤ fl f a ∧ fl f a ≤ M c ∧ R.Rep (fl f a) := by
  unfold preflowPush at h
  cases he : checkEnds g s t with
  | some e => rw [he] at h; cases h
  | none =>
    rw [he] at h
    simp only at h
    cases hi : pInit R sum g s t with
    | error e => rw [hi] at h; cases h
    | ok st =>
      rw [hi] at h
      simp only at h
      cases hl : pLoop R sum g s t (innerNodes g s t) fuel st with
      | error e => rw [hl] at h; cases h
      | ok st' =>
        rw [hl] at h
        have hf : f = st'.flow := by
          simp only at h
          split at h
          · cases h
          · cases h; rfl
        have hinit : FInv R M g st.flow st.residual := by
          unfold pInit at hi
          simp only at hi
          cases hr : resLoop R (initFlow g s) g.arcs [] with
          | error e => rw [hr] at hi; cases hi
          | ok r =>
            rw [hr] at hi
            cases hi
            obtain ⟨k1, k2⟩ := FInv.resLoop (R := R) hg g.arcs (fun _ hp => hp) [] RWF_nil
              (by intro a b x hx; simp [lookup, Dict.get?] at hx) hr
            have hv : ∀ a c, g.arcs.get? a = some c → fl (initFlow g s) a = c ∨ fl (initFlow g s) a = 0 := by
              intro a c ha
              unfold fl initFlow
              rw [Dict.get?_map_val, ha]
              simp only [Option.map_some, Option.getD_some]
              split
              · exact Or.inl rfl
              · exact Or.inr rfl
            refine ⟨Dict.keys_map_val _ _, k1, k2, ?_, ?_, ?_⟩ <;> intro a c ha <;>
              obtain ⟨⟨cr, c0, cM⟩, -⟩ := hF a c ha <;> rcases hv a c ha with hq | hq <;> simp only [hq]
            · exact c0
            · exact le_refl _
            · exact cr
            · exact R.rd_zero
            · exact cM
            · exact c0.trans cM
        have hfin := hinit.pLoop hg hna hF hl
        rw [hf]
        exact ⟨hfin.keys, fun a c ha => ⟨hfin.nonneg a c ha, hfin.bound a c ha, hfin.rep a c ha⟩⟩

/-! ### binary64 -/

theorem lastBit_mono {x y : ℚ} (hx : 0 ≤ x) (h : x ≤ y) : lastBit x ≤ lastBit y ∨ x = 0 := by
  by_cases h0 : x = 0
  · exact Or.inr h0
  left
  have hx' : 0 < x := lt_of_le_of_ne hx (Ne.symm h0)
  unfold lastBit
  rw [abs_of_nonneg hx, abs_of_nonneg (hx.trans h)]
  have := Int.log_mono_right (b := 2) hx' h
  omega

/-- A double plus one unit in its last place is a double. -/
theorem isDouble_next {c : ℚ} (hc : IsDouble c) (h0 : 0 ≤ c) : IsDouble (c + 2 ^ lastBit c) := by
  have hr := toDouble_of_isDouble hc
  unfold toDouble at hr
  set k := LinProg.roundEven (c / 2 ^ lastBit c) with hk
  have hp := two_pos' (lastBit c)
  have hlt := abs_lt_lastBit c
  rw [abs_of_nonneg h0, zpow_add₀ (by norm_num), mul_comm] at hlt
  have hk0 : 0 ≤ k := by
    have : (0 : ℚ) ≤ k := by
      by_contra hcon
      push Not at hcon
      have := mul_neg_of_neg_of_pos hcon hp
      rw [hr] at this
      linarith
    exact_mod_cast this
  have hk1 : k < 2 ^ 53 := by
    have h2 : (k : ℚ) * 2 ^ lastBit c < 2 ^ (53 : ℤ) * 2 ^ lastBit c := by rw [hr]; exact hlt
    have h3 := lt_of_mul_lt_mul_right h2 hp.le
    rw [show ((2 : ℚ) ^ (53 : ℤ)) = ((2 ^ 53 : ℤ) : ℚ) by norm_num] at h3
    exact_mod_cast h3
  refine ⟨k + 1, lastBit c, ?_, ?_, lastBit_ge c⟩
  · push_cast
    rw [add_mul, one_mul, hr]
  · rw [abs_of_nonneg (by omega)]
    omega

/-- For doubles the capacity is exceeded by at most one unit in the last place. -/
theorem binary64_fill {c : ℚ} (hc : IsDouble c) (h0 : 0 ≤ c) : FillOk binary64 (fun c => c + 2 ^ lastBit c) c := by
  have hp := two_pos' (lastBit c)
  refine ⟨⟨binary64_rep.mpr hc, h0, by linarith⟩, fun f _ hf0 hfc => ?_⟩
  have hn := isDouble_next hc h0
  refine Rounding.rd_le (binary64_rep.mpr hn) ?_
  show f + toDouble (c - f) ≤ c + 2 ^ lastBit c
  rcases lastBit_mono (show 0 ≤ c - f by linarith) (show c - f ≤ c by linarith) with hl | hl
  · have h1 := (abs_le.mp (toDouble_near (c - f))).2
    have h2 : (2 : ℚ) ^ lastBit (c - f) ≤ 2 ^ lastBit c := zpow_le_zpow_right₀ (by norm_num) hl
    linarith
  · rw [hl, toDouble_zero]
    linarith

end Floating
end Pytimize
