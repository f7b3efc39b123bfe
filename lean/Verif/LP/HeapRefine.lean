/-
The heap model of `Verif.LP.Heap` computes what the value model of `Verif.LP.Basic` computes: lemmas.
-/
import Verif.LP.HeapCtor
import Verif.LP.Sef
import Verif.LP.Simplex

namespace Pytimize
namespace LinHeap
open LinProg (Ineq Obj LP)

variable {m n : ℕ}

/-! ### Transposed views -/

/-- A matrix with at least one row and one column. -/
def Rect (c : Cell) : Prop :=
  ∃ (rows : List (List ℚ)) (k : ℕ), c = .mat rows ∧ rows ≠ [] ∧ 0 < k ∧ ∀ r ∈ rows, r.length = k

theorem headD_length {rows : List (List ℚ)} {k : ℕ} (h : rows ≠ []) (hr : ∀ r ∈ rows, r.length = k) :
    (rows.headD []).length = k := by
  cases rows with
  | nil => exact absurd rfl h
  | cons r rows => exact hr r List.mem_cons_self

theorem Rect.transpose {c : Cell} (h : Rect c) : Rect (transpose c) := by
  obtain ⟨rows, k, rfl, h1, h2, h3⟩ := h
  refine ⟨_, rows.length, rfl, ?_, List.length_pos_iff.mpr h1, ?_⟩
  · rw [headD_length h1 h3]
    intro e
    have := congrArg List.length e
    simp at this
    omega
  · intro r hr
    simp only [List.mem_map, List.mem_range] at hr
    obtain ⟨j, _, rfl⟩ := hr
    simp

theorem Rect.transpose_transpose {c : Cell} (h : Rect c) : LinHeap.transpose (LinHeap.transpose c) = c := by
  obtain ⟨rows, k, rfl, h1, h2, h3⟩ := h
  simp only [LinHeap.transpose, headD_length h1 h3, Cell.mat.injEq]
  have hd : (((List.range k).map fun j => rows.map fun r => r.getD j 0).headD []).length = rows.length := by
    refine headD_length ?_ ?_
    · intro e
      have := congrArg List.length e
      simp at this
      omega
    · intro r hr
      simp only [List.mem_map, List.mem_range] at hr
      obtain ⟨j, _, rfl⟩ := hr
      simp
  rw [hd]
  refine List.ext_getElem (by simp) fun i hi hi' => ?_
  simp only [List.getElem_map, List.getElem_range]
  refine List.ext_getElem (by simp [h3 _ (List.getElem_mem hi')]) fun j hj hj' => ?_
  simp [List.getD_eq_getElem?_getD, hi', hj']

/-! ### Effects on what a program shows -/

/-- The effect of one act on what a program shows. -/
def View.act (v : View) : Act → View
  | .poke f g => { v with field := Function.update v.field f (g (v.field f)) }
  | .bind f g => { v with field := Function.update v.field f (g v.field) }
  | .setZ z => { v with z := z }
  | .setObjective o => { v with objective := o }
  | .setSef b => { v with isSef := b }

/-- A program whose attributes refer to different objects in use; a transposed matrix is a view of a matrix. -/
structure Own (h : Heap) (p : Prg) : Prop where
  valid : Valid h p
  inj : Function.Injective p.addr
  rect : p.flipped = true → Rect (h.cell (p.addr .A))

/-- An act that leaves matrices rectangular. -/
def RectAct : Act → Prop
  | .poke .A g => ∀ c, Rect c → Rect (g c)
  | _ => True

theorem look_A_rect {h : Heap} {p : Prg} (ho : Own h p) (hf : p.flipped = true) : Rect (look h p .A) := by
  unfold look
  rw [if_pos ⟨rfl, hf⟩]
  exact (ho.rect hf).transpose

theorem act_view {h : Heap} {p : Prg} (ho : Own h p) {a : Act} (ha : RectAct a) :
    Own (act (h, p) a).1 (act (h, p) a).2 ∧ view (act (h, p) a).1 (act (h, p) a).2 = (view h p).act a := by
  cases a with
  | poke f g =>
    have hcell : ∀ f', f' ≠ f → (act (h, p) (.poke f g)).1.cell (p.addr f') = h.cell (p.addr f') := by
      intro f' hf'
      simp only [act]
      exact Function.update_of_ne (fun e => hf' (ho.inj e)) _ _
    have hself : (act (h, p) (.poke f g)).1.cell (p.addr f) =
        if f = .A ∧ p.flipped then transpose (g (look h p f)) else g (look h p f) := by
      simp only [act]
      exact Function.update_self _ _ _
    have hrect : p.flipped = true → f = .A → Rect (g (look h p f)) := by
      rintro hf rfl
      exact ha _ (look_A_rect ho hf)
    refine ⟨⟨ho.valid, ho.inj, fun hf => ?_⟩, ?_⟩
    · show Rect ((act (h, p) (.poke f g)).1.cell (p.addr .A))
      have hf : p.flipped = true := hf
      by_cases e : f = .A
      · subst e
        rw [hself, if_pos ⟨rfl, hf⟩]
        exact (hrect hf rfl).transpose
      · rw [hcell _ (fun e' => e e'.symm)]
        exact ho.rect hf
    · unfold view View.act
      simp only [View.mk.injEq]
      refine ⟨funext fun f' => ?_, rfl, rfl, rfl⟩
      show look (act (h, p) (.poke f g)).1 p f' = _
      by_cases e : f' = f
      · subst e
        rw [Function.update_self]
        unfold look
        rw [hself]
        by_cases hf : f' = .A ∧ p.flipped = true
        · rw [if_pos hf, if_pos hf, (hrect hf.2 hf.1).transpose_transpose]
          simp [look, hf]
        · rw [if_neg hf, if_neg hf]
          simp [look, hf]
      · rw [Function.update_of_ne e]
        unfold look
        rw [hcell _ e]
  | bind f g =>
    have hcell : ∀ f', (act (h, p) (.bind f g)).1.cell (p.addr f') = h.cell (p.addr f') := by
      intro f'
      simp only [act]
      exact Function.update_of_ne (ne_of_lt (ho.valid f')) _ _
    refine ⟨⟨fun f' => ?_, fun f' g' e => ?_, fun hf => ?_⟩, ?_⟩
    · simp only [act]
      by_cases e : f' = f
      · rw [e, Function.update_self]; exact Nat.lt_succ_self _
      · rw [Function.update_of_ne e]; exact Nat.lt_succ_of_lt (ho.valid f')
    · simp only [act] at e
      by_cases e1 : f' = f <;> by_cases e2 : g' = f
      · rw [e1, e2]
      · rw [e1, Function.update_self, Function.update_of_ne e2] at e
        exact absurd e.symm (ne_of_lt (ho.valid g'))
      · rw [e2, Function.update_self, Function.update_of_ne e1] at e
        exact absurd e (ne_of_lt (ho.valid f'))
      · rw [Function.update_of_ne e1, Function.update_of_ne e2] at e
        exact ho.inj e
    · have hf : (if f = .A then false else p.flipped) = true := hf
      have e : ¬ (f = .A) := by
        intro e
        rw [if_pos e] at hf
        exact absurd hf (by decide)
      rw [if_neg e] at hf
      show Rect ((act (h, p) (.bind f g)).1.cell (Function.update p.addr f h.next .A))
      rw [Function.update_of_ne (fun e' => e e'.symm), hcell]
      exact ho.rect hf
    · unfold view View.act
      simp only [View.mk.injEq]
      refine ⟨funext fun f' => ?_, rfl, rfl, rfl⟩
      by_cases e : f' = f
      · subst e
        rw [Function.update_self]
        simp only [look, act, Function.update_self]
        by_cases hA : f' = .A <;> simp [hA]
      · rw [Function.update_of_ne e]
        have e1 : (act (h, p) (.bind f g)).2.addr f' = p.addr f' := Function.update_of_ne e _ _
        have e2 : (f' = .A ∧ (act (h, p) (.bind f g)).2.flipped = true) ↔ (f' = .A ∧ p.flipped = true) := by
          constructor
          · rintro ⟨rfl, h2⟩
            have h2 : (if f = .A then false else p.flipped) = true := h2
            rw [if_neg (fun e' => e e'.symm)] at h2
            exact ⟨rfl, h2⟩
          · rintro ⟨rfl, h2⟩
            refine ⟨rfl, ?_⟩
            show (if f = .A then false else p.flipped) = true
            rw [if_neg (fun e' => e e'.symm)]
            exact h2
        unfold look
        rw [e1, hcell]
        simp only [e2]
  | setZ z => exact ⟨⟨ho.valid, ho.inj, ho.rect⟩, rfl⟩
  | setObjective o => exact ⟨⟨ho.valid, ho.inj, ho.rect⟩, rfl⟩
  | setSef b => exact ⟨⟨ho.valid, ho.inj, ho.rect⟩, rfl⟩

theorem acts_view (l : List Act) {h : Heap} {p : Prg} (ho : Own h p) (hl : ∀ a ∈ l, RectAct a) :
    Own (acts (h, p) l).1 (acts (h, p) l).2 ∧
      view (acts (h, p) l).1 (acts (h, p) l).2 = l.foldl View.act (view h p) := by
  induction l generalizing h p with
  | nil => exact ⟨ho, rfl⟩
  | cons a l ih =>
    obtain ⟨h1, h2⟩ := act_view ho (hl a List.mem_cons_self)
    obtain ⟨h3, h4⟩ := ih h1 (fun a h => hl a (List.mem_cons_of_mem _ h))
    exact ⟨h3, by rw [List.foldl_cons, ← h2]; exact h4⟩

theorem copy_own {h : Heap} {p : Prg} (_hp : Valid h p) : Own (copy h p).1 (copy h p).2 := by
  refine ⟨fun f => ?_, fun f g e => ?_, fun hf => by simp [copy] at hf⟩
  · show h.next + fields.idxOf f < h.next + 7
    cases f <;> simp [fields]
  · have : fields.idxOf f = fields.idxOf g := by
      have e : h.next + fields.idxOf f = h.next + fields.idxOf g := e
      omega
    revert this
    cases f <;> cases g <;> decide

/-! ### Programs as cells -/

/-- A matrix as a cell. -/
def matCell (M : Fin m → Fin n → ℚ) : Cell := .mat (List.ofFn fun i => List.ofFn (M i))

/-- A vector as a cell. -/
def vecCell (v : Fin n → ℚ) : Cell := .vec (List.ofFn v)

/-- The dictionary `_inequality_indices`, `_linear.py:113-128`: the rows that are not equations, in order. -/
def opsOf (q : Fin m → Ineq) : List (ℕ × Ineq) :=
  (List.finRange m).filterMap fun i => if q i = .eq then none else some ((i : ℕ), q i)

/-- The attributes show the program `P` (whatever the step log). -/
structure Encodes (v : View) (P : LP m n) : Prop where
  A : v.field .A = matCell P.A
  b : v.field .b = vecCell P.b
  c : v.field .c = vecCell P.c
  ineq : v.field .ineq = .ops (opsOf P.ineq)
  free : v.field .free = .ints P.free
  neg : v.field .neg = .ints P.neg
  z : v.z = P.z
  objective : v.objective = P.objective
  isSef : v.isSef = P.isSef

theorem matCell_rect (hm : 0 < m) (hn : 0 < n) (M : Fin m → Fin n → ℚ) : Rect (matCell M) := by
  refine ⟨_, n, rfl, ?_, hn, ?_⟩
  · intro e
    have := congrArg List.length e
    simp at this
    omega
  · intro r hr
    rw [List.mem_ofFn] at hr
    obtain ⟨i, rfl⟩ := hr
    simp

theorem matCell_transpose (hm : 0 < m) (M : Fin m → Fin n → ℚ) :
    transpose (matCell M) = matCell fun j i => M i j := by
  have h1 : (List.ofFn fun i => List.ofFn (M i)) ≠ [] := by
    intro e
    have := congrArg List.length e
    simp at this
    omega
  have h3 : ∀ r ∈ List.ofFn fun i => List.ofFn (M i), r.length = n := by
    intro r hr
    rw [List.mem_ofFn] at hr
    obtain ⟨i, rfl⟩ := hr
    simp
  simp only [transpose, matCell, headD_length h1 h3, Cell.mat.injEq]
  refine List.ext_getElem (by simp) fun j hj hj' => ?_
  have hj : j < n := by simpa using hj
  refine List.ext_getElem (by simp) fun i hi hi' => ?_
  simp [List.getD_eq_getElem?_getD, hj]

/-! ### `add_constraint` and `add_variable` -/

theorem ofFn_snoc {α : Type} (f : Fin n → α) (a : α) :
    List.ofFn (Fin.snoc (α := fun _ => α) f a : Fin (n + 1) → α) = List.ofFn f ++ [a] := by
  rw [List.ofFn_succ']
  simp

theorem opsOf_snoc (q : Fin m → Ineq) (o : Ineq) :
    opsOf (Fin.snoc (α := fun _ => Ineq) q o : Fin (m + 1) → Ineq) =
      opsOf q ++ (if o = .eq then [] else [(m, o)]) := by
  unfold opsOf
  rw [List.finRange_succ_last, List.filterMap_append, List.filterMap_map]
  congr 1
  · refine List.filterMap_congr fun i _ => ?_
    simp
  · by_cases h : o = .eq <;> simp [h]

theorem addConstraint_encodes {v : View} {P : LP m n} (hv : Encodes v P) {a : List ℚ} {s : String} {q : Ineq} {w : ℚ}
    (hs : Ineq.parse s = some q) {Q : LP (m + 1) n} (hQ : LinProg.addConstraint P a s w = .ok Q) :
    Encodes ((addConstraintActs m a q w).foldl View.act v) Q := by
  unfold LinProg.addConstraint at hQ
  rw [hs] at hQ
  cases ht : LinProg.toVec n a with
  | none => simp [ht] at hQ
  | some x =>
    simp only [ht, Except.ok.injEq] at hQ
    subst hQ
    have ha : a = List.ofFn x := by
      unfold LinProg.toVec at ht
      split at ht
      · rename_i hl
        cases ht
        subst hl
        simp
      · cases ht
    have hA : List.ofFn (fun i => List.ofFn ((Fin.snoc (α := fun _ => Fin n → ℚ) P.A x : Fin (m + 1) → Fin n → ℚ) i)) =
        (List.ofFn fun i => List.ofFn (P.A i)) ++ [a] := by
      have := ofFn_snoc (fun i => List.ofFn (P.A i)) (List.ofFn x)
      rw [ha, ← this]
      congr 1
      funext i
      refine Fin.lastCases ?_ (fun i => ?_) i
      · simp only [Fin.snoc_last]
        exact congrArg List.ofFn (Fin.snoc_last (α := fun _ => Fin n → ℚ) x P.A)
      · simp only [Fin.snoc_castSucc]
        exact congrArg List.ofFn (Fin.snoc_castSucc (α := fun _ => Fin n → ℚ) x P.A i)
    by_cases hq : q = .eq
    · simp only [addConstraintActs, hq, if_true, List.nil_append, List.foldl_cons, List.foldl_nil, View.act]
      refine ⟨?_, ?_, ?_, ?_, ?_, ?_, hv.z, hv.objective, ?_⟩
      · simp [-List.ofFn_succ, hv.A, matCell, Cell.rows, hA]
      · simp [-List.ofFn_succ, hv.b, vecCell, Cell.entries, ofFn_snoc]
      · simpa using hv.c
      · simp [hv.ineq, opsOf_snoc]
      · simpa using hv.free
      · simpa using hv.neg
      · simpa using hv.isSef
    · simp only [addConstraintActs, hq, if_false, List.foldl_cons, List.foldl_nil, View.act, List.cons_append,
        List.nil_append]
      refine ⟨?_, ?_, ?_, ?_, ?_, ?_, hv.z, hv.objective, ?_⟩
      · simp [-List.ofFn_succ, hv.A, matCell, Cell.rows, hA]
      · simp [-List.ofFn_succ, hv.b, vecCell, Cell.entries, ofFn_snoc]
      · simpa using hv.c
      · simp [hv.ineq, opsOf_snoc, Cell.dict, hq]
      · simpa using hv.free
      · simpa using hv.neg
      · simp

theorem addVariable_encodes {v : View} {P : LP m n} (hv : Encodes v P) {cost : ℚ} {col : Option (List ℚ)} {free neg : Bool}
    {Q : LP m (n + 1)} (hQ : LinProg.addVariable P cost col free neg = .ok Q) :
    Encodes ((addVariableActs n cost (col.getD (List.replicate m 0)) free neg).foldl View.act v) Q := by
  unfold LinProg.addVariable at hQ
  by_cases hfn : (free && neg) = true
  · simp [hfn] at hQ
  rw [if_neg hfn] at hQ
  cases ht : LinProg.toVec m (col.getD (List.replicate m 0)) with
  | none => simp [ht] at hQ
  | some x =>
    simp only [ht, Except.ok.injEq] at hQ
    subst hQ
    generalize col.getD (List.replicate m 0) = a at ht
    have ha : a = List.ofFn x := by
      unfold LinProg.toVec at ht
      split at ht
      · rename_i hl
        cases ht
        subst hl
        simp
      · cases ht
    have hA : ∀ M : Fin m → Fin n → ℚ, List.zipWith (fun r x => r ++ [x]) (List.ofFn fun i => List.ofFn (M i)) a =
        List.ofFn fun i => List.ofFn (Fin.snoc (α := fun _ => ℚ) (M i) (x i) : Fin (n + 1) → ℚ) := by
      intro M
      rw [ha]
      refine List.ext_getElem (by simp) fun i hi hi' => ?_
      simp [-List.ofFn_succ, ofFn_snoc]
    have hmark : ∀ F : Field → Cell, F .A = matCell P.A → F .b = vecCell P.b → F .c = vecCell P.c →
        F .ineq = .ops (opsOf P.ineq) → ∀ fr ng sef, F .free = .ints fr → F .neg = .ints ng →
        Encodes ([Act.bind .A fun w => .mat (List.zipWith (fun r x => r ++ [x]) (w .A).rows a),
          Act.bind .c fun w => .vec ((w .c).entries ++ [cost])].foldl View.act ⟨F, v.z, v.objective, sef⟩)
          { A := fun i => (Fin.snoc (α := fun _ => ℚ) (P.A i) (x i) : Fin (n + 1) → ℚ), b := P.b,
            c := (Fin.snoc (α := fun _ => ℚ) P.c cost : Fin (n + 1) → ℚ), z := P.z, objective := P.objective,
            ineq := P.ineq, free := fr, neg := ng, isSef := sef } := by
      intro F h1 h2 h3 h4 fr ng sef h5 h6
      simp only [List.foldl_cons, List.foldl_nil, View.act]
      refine ⟨?_, ?_, ?_, ?_, ?_, ?_, hv.z, hv.objective, rfl⟩
      · have := congrArg Cell.mat (hA fun i j => P.A i j)
        simp only [Function.update_self, ne_eq, reduceCtorEq, not_false_eq_true, Function.update_of_ne, h1]
        exact this
      · simpa using h2
      · simp [-List.ofFn_succ, h3, vecCell, Cell.entries, ofFn_snoc]
      · simpa using h4
      · simpa using h5
      · simpa using h6
    cases free with
    | true =>
      simp only [addVariableActs, if_true, List.foldl_append]
      have := hmark (Function.update v.field .free (.ints (P.free ++ [n]))) (by simpa using hv.A) (by simpa using hv.b)
        (by simpa using hv.c) (by simpa using hv.ineq) (P.free ++ [n]) P.neg false (by simp) (by simpa using hv.neg)
      simpa [LinProg.addVariableMark, View.act, hv.free, Cell.indices] using this
    | false =>
      cases neg with
      | true =>
        simp only [addVariableActs, if_true, Bool.false_eq_true, if_false, List.foldl_append]
        have := hmark (Function.update v.field .neg (.ints (P.neg ++ [n]))) (by simpa using hv.A) (by simpa using hv.b)
          (by simpa using hv.c) (by simpa using hv.ineq) P.free (P.neg ++ [n]) false (by simpa using hv.free) (by simp)
        simpa [LinProg.addVariableMark, View.act, hv.neg, Cell.indices] using this
      | false =>
        simp only [addVariableActs, Bool.false_eq_true, if_false, List.nil_append]
        have := hmark v.field hv.A hv.b hv.c hv.ineq P.free P.neg P.isSef hv.free hv.neg
        have e : v = ⟨v.field, v.z, v.objective, P.isSef⟩ := by rw [← hv.isSef]
        rw [e]
        exact this

/-! ### Row operations -/

theorem negRowsList (S : List ℕ) (hS : S.Nodup) (M : Fin m → Fin n → ℚ) :
    S.foldl (fun r i => r.modify i fun row => row.map (· * (-1))) (List.ofFn fun i => List.ofFn (M i)) =
      List.ofFn fun i : Fin m => List.ofFn fun j => if (i : ℕ) ∈ S then M i j * (-1) else M i j := by
  induction S generalizing M with
  | nil => simp
  | cons k S ih =>
    obtain ⟨h1, h2⟩ := List.nodup_cons.mp hS
    rw [List.foldl_cons]
    have : (List.ofFn fun i => List.ofFn (M i)).modify k (fun row => row.map (· * (-1))) =
        List.ofFn fun i : Fin m => List.ofFn fun j => if (i : ℕ) = k then M i j * (-1) else M i j := by
      refine List.ext_getElem (by simp) fun i hi hi' => ?_
      rw [List.getElem_modify]
      by_cases e : k = i
      · subst e
        refine List.ext_getElem (by simp) fun j hj hj' => ?_
        simp
      · rw [if_neg e]
        simp only [List.getElem_ofFn, if_neg (fun h : i = k => e h.symm)]
    rw [this, ih h2]
    congr 1
    funext i
    congr 1
    funext j
    by_cases e : (i : ℕ) = k
    · rw [if_pos e, e]
      simp [h1]
    · simp [e]

theorem negEntriesList (S : List ℕ) (hS : S.Nodup) (w : Fin m → ℚ) :
    S.foldl (fun l i => negEntry i l) (List.ofFn w) =
      List.ofFn fun i : Fin m => if (i : ℕ) ∈ S then w i * (-1) else w i := by
  induction S generalizing w with
  | nil => simp
  | cons k S ih =>
    obtain ⟨h1, h2⟩ := List.nodup_cons.mp hS
    rw [List.foldl_cons]
    have : negEntry k (List.ofFn w) = List.ofFn fun i : Fin m => if (i : ℕ) = k then w i * (-1) else w i := by
      refine List.ext_getElem (by simp [negEntry]) fun i hi hi' => ?_
      simp only [negEntry, List.getElem_modify, List.getElem_ofFn]
      by_cases e : k = i
      · subst e; simp
      · rw [if_neg e, if_neg (fun h : i = k => e h.symm)]
    rw [this, ih h2]
    congr 1
    funext i
    by_cases e : (i : ℕ) = k
    · rw [if_pos e, e]
      simp [h1]
    · simp [e]

/-- `np.where(self._b < 0)` as a list of rows. -/
def whereNeg (P : LP m n) : List ℕ := ((List.finRange m).filter fun i => LinProg.negRows P i).map Fin.val

theorem whereNeg_nodup (P : LP m n) : (whereNeg P).Nodup :=
  List.Nodup.map Fin.val_injective ((List.nodup_finRange m).filter _)

theorem mem_whereNeg {P : LP m n} {i : Fin m} : (i : ℕ) ∈ whereNeg P ↔ LinProg.negRows P i = true := by
  unfold whereNeg
  simp only [List.mem_map, List.mem_filter, List.mem_finRange, true_and]
  exact ⟨fun ⟨k, hk, e⟩ => Fin.ext e ▸ hk, fun h => ⟨i, h, rfl⟩⟩

theorem canonical_encodes {v : View} {P Q : LP m n} (hv : Encodes v P)
    (hQ : Q.ineq = P.ineq ∧ Q.free = P.free ∧ Q.neg = P.neg ∧ Q.objective = P.objective ∧ Q.isSef = P.isSef) :
    Encodes ((canonicalActs (fun _ => matCell Q.A) (fun _ => vecCell Q.b) (fun _ => vecCell Q.c) Q.z).foldl View.act v) Q := by
  obtain ⟨h1, h2, h3, h4, h5⟩ := hQ
  simp only [canonicalActs, List.foldl_cons, List.foldl_nil, View.act]
  exact ⟨by simp, by simp, by simp, by simpa [h1] using hv.ineq, by simpa [h2] using hv.free, by simpa [h3] using hv.neg,
    rfl, by simpa [h4] using hv.objective, by simpa [h5] using hv.isSef⟩

theorem flip_encodes {v : View} {P : LP m n} (hv : Encodes v P) :
    Encodes ((flipActs (whereNeg P)).foldl View.act v) (LinProg.flipRows (LinProg.negRows P) P) := by
  have hA : Cell.mat ((whereNeg P).foldl (fun r i => r.modify i fun row => row.map (· * (-1))) (v.field .A).rows) =
      matCell (LinProg.flipRows (LinProg.negRows P) P).A := by
    rw [hv.A]
    show Cell.mat ((whereNeg P).foldl _ (List.ofFn fun i => List.ofFn fun j => P.A i j)) = _
    rw [negRowsList _ (whereNeg_nodup P) fun i j => P.A i j]
    simp only [mem_whereNeg]
    rfl
  have hb : Cell.vec ((whereNeg P).foldl (fun l i => negEntry i l) (v.field .b).entries) =
      vecCell (LinProg.flipRows (LinProg.negRows P) P).b := by
    rw [hv.b]
    show Cell.vec ((whereNeg P).foldl _ (List.ofFn P.b)) = _
    rw [negEntriesList _ (whereNeg_nodup P)]
    simp only [mem_whereNeg]
    rfl
  have e : (flipActs (whereNeg P)).foldl View.act v = ⟨Function.update (Function.update v.field .b
      (.vec ((whereNeg P).foldl (fun l i => negEntry i l) (v.field .b).entries))) .A
      (.mat ((whereNeg P).foldl (fun r i => r.modify i fun row => row.map (· * (-1))) (v.field .A).rows)), v.z,
      v.objective, v.isSef⟩ := rfl
  rw [e, hA, hb]
  exact ⟨rfl, rfl, hv.c, hv.ineq, hv.free, hv.neg, hv.z, hv.objective, hv.isSef⟩

/-! ### `to_sef` -/

/-- The first `k` entries of a vector. -/
def firstN (k : ℕ) (f : ℕ → ℚ) : List ℚ := (List.range k).map f

theorem firstN_ext (f : Fin n → ℚ) : firstN n (LinProg.ext f) = List.ofFn f := by
  refine List.ext_getElem (by simp [firstN]) fun i hi hi' => ?_
  have hi : i < n := by simpa [firstN] using hi
  simp [firstN, LinProg.ext, hi]

theorem firstN_neg (k i : ℕ) (f : ℕ → ℚ) : negEntry i (firstN k f) = firstN k (LinProg.negAt f i) := by
  refine List.ext_getElem (by simp [firstN, negEntry]) fun j hj hj' => ?_
  simp only [negEntry, firstN, List.getElem_modify, List.getElem_map, List.getElem_range, LinProg.negAt]
  by_cases e : i = j
  · subst e; simp
  · rw [if_neg e, if_neg (fun h : j = i => e h.symm)]

theorem firstN_getElem {k i : ℕ} (h : i < k) (f : ℕ → ℚ) : (firstN k f)[i]?.getD 0 = f i := by
  simp [firstN, h]

theorem firstN_insert {k i : ℕ} (h : i ≤ k) (f : ℕ → ℚ) (w : ℚ) :
    (firstN k f).insertIdx i w = firstN (k + 1) (LinProg.npInsert f i w) := by
  refine List.ext_getElem (by simp [firstN, List.length_insertIdx, h]) fun j hj hj' => ?_
  rw [List.getElem_insertIdx]
  simp only [firstN, List.getElem_map, List.getElem_range, LinProg.npInsert]
  by_cases h1 : j < i
  · simp [h1]
  · by_cases h2 : j = i
    · simp [h2]
    · simp [h1, h2]

/-- The arrays `A` and `c` show `s`, everything else is as in `w`. -/
structure ShowsCols (v : View) (s : LinProg.Cols m) (w : View) : Prop where
  A : v.field .A = .mat (List.ofFn fun r => firstN s.n (s.A r))
  c : v.field .c = .vec (firstN s.n s.c)
  rest : ∀ f, f ≠ .A → f ≠ .c → v.field f = w.field f
  z : v.z = w.z
  objective : v.objective = w.objective
  isSef : v.isSef = w.isSef

theorem neg_shows (l : List ℕ) {v w : View} {s : LinProg.Cols m} (h : ShowsCols v s w) :
    ShowsCols ((l.flatMap fun i => [Act.poke .A fun a => .mat (a.rows.map (negEntry i)),
      Act.poke .c fun a => .vec (negEntry i a.entries)]).foldl View.act v) (l.foldl LinProg.negColumn s) w := by
  induction l generalizing v s with
  | nil => exact h
  | cons i l ih =>
    rw [List.flatMap_cons, List.foldl_append, List.foldl_cons]
    refine ih ?_
    simp only [List.foldl_cons, List.foldl_nil, View.act]
    refine ⟨?_, ?_, fun f h1 h2 => ?_, h.z, h.objective, h.isSef⟩
    · simp [h.A, Cell.rows, LinProg.negColumn, List.map_ofFn, Function.comp_def, firstN_neg]
    · simp [h.c, Cell.entries, LinProg.negColumn, firstN_neg]
    · simpa [Function.update_of_ne h1, Function.update_of_ne h2] using h.rest f h1 h2

theorem split_shows (l : List ℕ) (i : ℕ) {v w : View} {s : LinProg.Cols m} (h : ShowsCols v s w)
    (hl : ∀ f ∈ l, f + i < s.n) :
    ShowsCols (((l.zipIdx i).flatMap fun (f, i) =>
      [Act.bind .c fun w => .vec ((w .c).entries.insertIdx (f + i + 1) (-((w .c).entries.getD (f + i) 0))),
        Act.bind .A fun w => .mat ((w .A).rows.map fun r => r.insertIdx (f + i + 1) (-(r.getD (f + i) 0)))]).foldl
        View.act v) (LinProg.splitAll l i s) w := by
  induction l generalizing v s i with
  | nil => exact h
  | cons f l ih =>
    rw [List.zipIdx_cons, List.flatMap_cons, List.foldl_append]
    have hf := hl f List.mem_cons_self
    refine ih (i + 1) (s := LinProg.splitFree s (f + i)) ?_ (fun g hg => ?_)
    · simp only [List.foldl_cons, List.foldl_nil, View.act]
      refine ⟨?_, ?_, fun g h1 h2 => ?_, h.z, h.objective, h.isSef⟩
      · simp [h.A, Cell.rows, LinProg.splitFree, List.map_ofFn, Function.comp_def, firstN_getElem hf,
          firstN_insert (show f + i + 1 ≤ s.n by omega)]
      · simp [h.c, Cell.entries, LinProg.splitFree, firstN_getElem hf, firstN_insert (show f + i + 1 ≤ s.n by omega)]
      · simpa [Function.update_of_ne h1, Function.update_of_ne h2] using h.rest g h1 h2
    · have := hl g (List.mem_cons_of_mem _ hg)
      show g + (i + 1) < s.n + 1
      omega

theorem slack_shows (q : Fin m → Ineq) (l : List (Fin m)) {v w : View} {s : LinProg.Cols m} (h : ShowsCols v s w) :
    ShowsCols (((l.filterMap fun i => if q i = .eq then none else some ((i : ℕ), q i)).flatMap fun (i, q) =>
      [Act.bind .A fun w => .mat ((w .A).rows.map (· ++ [0])), Act.bind .c fun w => .vec ((w .c).entries ++ [0]),
        Act.poke .A fun a => .mat (a.rows.modify i fun r => r.modify (r.length - 1) fun _ => toSefActs.slackOf q)]).foldl
        View.act v) (l.foldl (LinProg.addSlack q) s) w := by
  induction l generalizing v s with
  | nil => exact h
  | cons i l ih =>
    by_cases hq : q i = .eq
    · rw [List.filterMap_cons, if_pos hq, List.foldl_cons]
      have : LinProg.addSlack q s i = s := by simp [LinProg.addSlack, hq]
      rw [this]
      exact ih h
    · rw [List.filterMap_cons, if_neg hq, List.foldl_cons]
      simp only [List.flatMap_cons, List.foldl_append]
      refine ih ?_
      have hsign : toSefActs.slackOf (q i) = LinProg.slackSign (q i) := by
        revert hq
        cases q i <;> simp [toSefActs.slackOf, LinProg.slackSign]
      simp only [List.foldl_cons, List.foldl_nil, View.act]
      refine ⟨?_, ?_, fun g h1 h2 => ?_, h.z, h.objective, h.isSef⟩
      · simp only [Function.update_self, ne_eq, reduceCtorEq, not_false_eq_true, Function.update_of_ne, h.A, Cell.rows,
          Cell.mat.injEq, LinProg.addSlack, hq, if_false, hsign, List.map_ofFn, Function.comp_def]
        refine List.ext_getElem (by simp) fun r hr hr' => ?_
        have hr : r < m := by simpa using hr'
        rw [List.getElem_modify]
        simp only [List.getElem_ofFn]
        by_cases e : (i : ℕ) = r
        · have e' : (⟨r, hr⟩ : Fin m) = i := Fin.ext e.symm
          rw [if_pos e]
          refine List.ext_getElem (by simp [firstN]) fun j hj hj' => ?_
          have hj : j < s.n + 1 := by simpa [firstN] using hj'
          rw [List.getElem_modify]
          simp only [List.length_append, firstN, List.length_map, List.length_range, List.length_singleton,
            List.getElem_map, List.getElem_range, e', Nat.add_sub_cancel]
          by_cases ej : j = s.n
          · simp [ej]
          · have hj' : j < s.n := by omega
            rw [if_neg (fun h => ej h.symm), if_neg ej, List.getElem_append_left (by simpa using hj')]
            simp
        · have e' : ¬ (⟨r, hr⟩ : Fin m) = i := fun h => e (by rw [← h])
          rw [if_neg e]
          refine List.ext_getElem (by simp [firstN]) fun j hj hj' => ?_
          have hj : j < s.n + 1 := by simpa [firstN] using hj'
          simp only [firstN, List.getElem_map, List.getElem_range, e', if_false]
          by_cases ej : j = s.n
          · subst ej
            rw [List.getElem_append_right (by simp)]
            simp
          · have hj' : j < s.n := by omega
            rw [if_neg ej, List.getElem_append_left (by simpa using hj')]
            simp
      · simp only [Function.update_self, ne_eq, reduceCtorEq, not_false_eq_true, Function.update_of_ne, h.c, Cell.entries,
          Cell.vec.injEq, LinProg.addSlack, hq, if_false]
        refine List.ext_getElem (by simp [firstN]) fun j hj hj' => ?_
        have hj : j < s.n + 1 := by simpa [firstN] using hj'
        simp only [firstN, List.getElem_map, List.getElem_range]
        by_cases ej : j = s.n
        · subst ej
          rw [List.getElem_append_right (by simp)]
          simp
        · have hj' : j < s.n := by omega
          rw [if_neg ej, List.getElem_append_left (by simpa using hj')]
          simp
      · simpa [Function.update_of_ne h1, Function.update_of_ne h2] using h.rest g h1 h2

theorem ShowsCols.bind {v w : View} {s : LinProg.Cols m} (h : ShowsCols v s w) {f : Field} (hA : f ≠ .A) (hc : f ≠ .c)
    (x : Cell) : ShowsCols (v.act (.bind f fun _ => x)) s (w.act (.bind f fun _ => x)) := by
  refine ⟨?_, ?_, fun g h1 h2 => ?_, h.z, h.objective, h.isSef⟩
  · simp only [View.act, Function.update_of_ne hA.symm]; exact h.A
  · simp only [View.act, Function.update_of_ne hc.symm]; exact h.c
  · by_cases e : g = f
    · subst e; simp only [View.act, Function.update_self]
    · simp only [View.act, Function.update_of_ne e]; exact h.rest g h1 h2

theorem firstN_ofFn (k : ℕ) (f : ℕ → ℚ) : firstN k f = List.ofFn fun j : Fin k => f j := by
  refine List.ext_getElem (by simp [firstN]) fun i hi hi' => ?_
  simp [firstN]

theorem opsOf_eq : opsOf (fun _ : Fin m => Ineq.eq) = [] := by
  unfold opsOf
  rw [List.filterMap_eq_nil_iff]
  simp

theorem toSef_encodes {v : View} {P : LP m n} (hv : Encodes v P) (hs : P.isSef = false) (hfree : ∀ f ∈ P.free, f < n) :
    Encodes ((toSefActs P.objective P.neg P.free (opsOf P.ineq)).foldl View.act v) (LinProg.toSef P).lp := by
  have h0 : ∃ w, (if P.objective = .min then [Act.bind .c fun w => .vec ((w .c).entries.map (- ·)), Act.setObjective .max]
      else []).foldl View.act v = w ∧
      ShowsCols w (LinProg.colsOf P (if P.objective = .min then fun j => -P.c j else P.c)) w ∧ w.field .b = vecCell P.b ∧
      w.z = P.z ∧ w.objective = .max := by
    by_cases ho : P.objective = .min
    · refine ⟨_, rfl, ⟨?_, ?_, fun _ _ _ => rfl, rfl, rfl, rfl⟩, ?_, ?_, ?_⟩
      · simp only [ho, if_true, List.foldl_cons, List.foldl_nil, View.act, LinProg.colsOf, firstN_ext]
        exact hv.A
      · simp only [ho, if_true, List.foldl_cons, List.foldl_nil, View.act, LinProg.colsOf, firstN_ext,
          Function.update_self, hv.c, vecCell, Cell.entries, List.map_ofFn, Function.comp_def]
      · simp only [ho, if_true, List.foldl_cons, List.foldl_nil, View.act]
        exact hv.b
      · simp only [ho, if_true, List.foldl_cons, List.foldl_nil, View.act]
        exact hv.z
      · simp only [ho, if_true, List.foldl_cons, List.foldl_nil, View.act]
    · refine ⟨_, rfl, ⟨?_, ?_, fun _ _ _ => rfl, rfl, rfl, rfl⟩, ?_, ?_, ?_⟩
      · simp only [ho, if_false, List.foldl_nil, LinProg.colsOf, firstN_ext]
        exact hv.A
      · simp only [ho, if_false, List.foldl_nil, LinProg.colsOf, firstN_ext]
        exact hv.c
      · simp only [ho, if_false, List.foldl_nil]
        exact hv.b
      · simp only [ho, if_false, List.foldl_nil]
        exact hv.z
      · simp only [ho, if_false, List.foldl_nil]
        rw [hv.objective]
        revert ho
        cases P.objective <;> simp
  obtain ⟨w, e0, h0, hb, hz, ho⟩ := h0
  have hn : (P.neg.foldl LinProg.negColumn
      (LinProg.colsOf P (if P.objective = .min then fun j => -P.c j else P.c))).n = n := by
    have : ∀ (l : List ℕ) (s : LinProg.Cols m), (l.foldl LinProg.negColumn s).n = s.n := by
      intro l
      induction l with
      | nil => intro s; rfl
      | cons k l ih => intro s; rw [List.foldl_cons, ih]; rfl
    rw [this]
    rfl
  have h1 := (neg_shows P.neg h0).bind (f := .neg) (by decide) (by decide) (.ints [])
  have h2 := (split_shows P.free 0 h1 (fun f hf => by rw [hn]; exact hfree f hf)).bind (f := .free) (by decide)
    (by decide) (.ints [])
  have h3 := (slack_shows P.ineq (List.finRange m) h2).bind (f := .ineq) (by decide) (by decide) (.ops [])
  have hcols : (List.finRange m).foldl (LinProg.addSlack P.ineq) (LinProg.splitAll P.free 0 (P.neg.foldl LinProg.negColumn
      (LinProg.colsOf P (if P.objective = .min then fun j => -P.c j else P.c)))) = LinProg.sefCols P := rfl
  rw [hcols] at h3
  have hres : (toSefActs P.objective P.neg P.free (opsOf P.ineq)).foldl View.act v = View.act (View.act
      (((opsOf P.ineq).flatMap fun (i, q) =>
      [Act.bind .A fun w => .mat ((w .A).rows.map (· ++ [0])), Act.bind .c fun w => .vec ((w .c).entries ++ [0]),
        Act.poke .A fun a => .mat (a.rows.modify i fun r => r.modify (r.length - 1) fun _ => toSefActs.slackOf q)]).foldl
        View.act (View.act ((P.free.zipIdx.flatMap fun (f, i) =>
      [Act.bind .c fun w => .vec ((w .c).entries.insertIdx (f + i + 1) (-((w .c).entries.getD (f + i) 0))),
        Act.bind .A fun w => .mat ((w .A).rows.map fun r => r.insertIdx (f + i + 1) (-(r.getD (f + i) 0)))]).foldl
        View.act (View.act ((P.neg.flatMap fun i => [Act.poke .A fun a => .mat (a.rows.map (negEntry i)),
      Act.poke .c fun a => .vec (negEntry i a.entries)]).foldl View.act w)
        (.bind .neg fun _ => .ints []))) (.bind .free fun _ => .ints []))) (.bind .ineq fun _ => .ops [])) (.setSef true) := by
    unfold toSefActs
    simp only [List.foldl_append, e0, List.foldl_cons, List.foldl_nil]
  rw [hres]
  have hlp : (LinProg.toSef P) = ⟨(LinProg.sefCols P).n,
      { A := fun r j => (LinProg.sefCols P).A r j, b := P.b, c := fun j => (LinProg.sefCols P).c j, z := P.z,
        objective := .max, ineq := fun _ => .eq, free := [], neg := [], isSef := true },
      some ⟨((List.finRange m).filter fun i => decide (P.ineq i ≠ .eq)).length,
        LinProg.concatOf P.free 0, P.neg⟩⟩ := by
    unfold LinProg.toSef
    rw [if_neg (by rw [hs]; decide)]
  rw [hlp]
  refine ⟨?_, ?_, ?_, ?_, ?_, ?_, ?_, ?_, rfl⟩
  · refine Eq.trans h3.A ?_
    simp only [matCell, firstN_ofFn]
  · refine Eq.trans (h3.rest .b (by decide) (by decide)) ?_
    exact hb
  · refine Eq.trans h3.c ?_
    simp only [vecCell, firstN_ofFn]
  · refine Eq.trans (h3.rest .ineq (by decide) (by decide)) ?_
    rw [opsOf_eq]
    rfl
  · exact (h3.rest .free (by decide) (by decide)).trans rfl
  · exact (h3.rest .neg (by decide) (by decide)).trans rfl
  · exact h3.z.trans hz
  · exact h3.objective.trans ho

/-! ### The matrices stay rectangular -/

theorem rect_map {g : List ℚ → List ℚ} (hg : ∀ r, (g r).length = r.length) {c : Cell} (h : Rect c) :
    Rect (.mat (c.rows.map g)) := by
  obtain ⟨rows, k, rfl, h1, h2, h3⟩ := h
  refine ⟨_, k, rfl, by simpa [Cell.rows] using h1, h2, fun r hr => ?_⟩
  simp only [Cell.rows, List.mem_map] at hr
  obtain ⟨r', hr', rfl⟩ := hr
  rw [hg, h3 r' hr']

theorem rect_modify {g : List ℚ → List ℚ} (hg : ∀ r, (g r).length = r.length) (i : ℕ) {c : Cell} (h : Rect c) :
    Rect (.mat (c.rows.modify i g)) := by
  obtain ⟨rows, k, rfl, h1, h2, h3⟩ := h
  refine ⟨_, k, rfl, ?_, h2, fun r hr => ?_⟩
  · intro e
    have := congrArg List.length e
    simp only [Cell.rows, List.length_modify, List.length_nil, List.length_eq_zero_iff] at this
    exact h1 this
  · rw [List.mem_iff_getElem] at hr
    obtain ⟨j, hj, rfl⟩ := hr
    have hj' : j < rows.length := by simpa [Cell.rows] using hj
    rw [List.getElem_modify]
    have := h3 _ (List.getElem_mem hj')
    simp only [Cell.rows]
    split
    · rw [hg]; exact this
    · exact this

theorem rect_foldl {g : List ℚ → List ℚ} (hg : ∀ r, (g r).length = r.length) (S : List ℕ) {c : Cell} (h : Rect c) :
    Rect (.mat (S.foldl (fun r i => r.modify i g) c.rows)) := by
  induction S generalizing c with
  | nil =>
    obtain ⟨rows, k, rfl, h1⟩ := h
    exact ⟨rows, k, rfl, h1⟩
  | cons i S ih =>
    rw [List.foldl_cons]
    exact ih (rect_modify hg i h)

theorem toSef_rect (o : Obj) (neg free : List ℕ) (ineq : List (ℕ × Ineq)) :
    ∀ a ∈ toSefActs o neg free ineq, RectAct a := by
  intro a ha
  unfold toSefActs at ha
  simp only [List.mem_append, List.mem_flatMap, List.mem_cons, List.not_mem_nil, or_false] at ha
  rcases ha with ((((((ha | ha) | ha) | ha) | ha) | ha) | ha)
  · split at ha
    · simp only [List.mem_cons, List.not_mem_nil, or_false] at ha
      rcases ha with rfl | rfl <;> trivial
    · cases ha
  · obtain ⟨i, _, rfl | rfl⟩ := ha
    · exact fun c hc => rect_map (by simp [negEntry]) hc
    · trivial
  · subst ha; trivial
  · obtain ⟨⟨f, i⟩, _, ha⟩ := ha
    simp only [List.mem_cons, List.not_mem_nil, or_false] at ha
    rcases ha with rfl | rfl <;> trivial
  · subst ha; trivial
  · obtain ⟨⟨i, q⟩, _, ha⟩ := ha
    simp only [List.mem_cons, List.not_mem_nil, or_false] at ha
    rcases ha with rfl | rfl | rfl
    · trivial
    · trivial
    · exact fun c hc => rect_modify (by simp) i hc
  · rcases ha with rfl | rfl <;> trivial

theorem addConstraint_rect (rows : ℕ) (a : List ℚ) (q : Ineq) (v : ℚ) : ∀ x ∈ addConstraintActs rows a q v, RectAct x := by
  intro x hx
  by_cases hq : q = .eq <;> simp [addConstraintActs, hq] at hx
  · rcases hx with rfl | rfl <;> trivial
  · rcases hx with rfl | rfl | rfl | rfl <;> trivial

theorem addVariable_rect (columns : ℕ) (cost : ℚ) (col : List ℚ) (free neg : Bool) :
    ∀ x ∈ addVariableActs columns cost col free neg, RectAct x := by
  intro x hx
  cases free <;> cases neg <;> simp [addVariableActs] at hx
  · rcases hx with rfl | rfl <;> trivial
  · rcases hx with rfl | rfl | rfl | rfl <;> trivial
  · rcases hx with rfl | rfl | rfl | rfl <;> trivial
  · rcases hx with rfl | rfl | rfl | rfl <;> trivial

theorem canonical_rect (A b c : (Field → Cell) → Cell) (z : ℚ) : ∀ x ∈ canonicalActs A b c z, RectAct x := by
  intro x hx
  simp only [canonicalActs, List.mem_cons, List.not_mem_nil, or_false] at hx
  rcases hx with rfl | rfl | rfl | rfl <;> trivial

theorem flip_rect (S : List ℕ) : ∀ x ∈ flipActs S, RectAct x := by
  intro x hx
  simp only [flipActs, List.mem_cons, List.not_mem_nil, or_false] at hx
  rcases hx with rfl | rfl
  · trivial
  · exact fun c hc => rect_foldl (by simp) S hc

theorem log_rect (t : String) : ∀ x ∈ logActs t, RectAct x := by
  intro x hx
  simp only [logActs, List.mem_cons, List.not_mem_nil, or_false] at hx
  subst hx
  trivial

theorem log_encodes (texts : List String) {v : View} {P : LP m n} (hv : Encodes v P) :
    Encodes ((texts.flatMap logActs).foldl View.act v) P := by
  induction texts generalizing v with
  | nil => exact hv
  | cons t l ih =>
    rw [List.flatMap_cons, List.foldl_append]
    refine ih ?_
    simp only [logActs, List.foldl_cons, List.foldl_nil, View.act]
    exact ⟨hv.A, hv.b, hv.c, hv.ineq, hv.free, hv.neg, hv.z, hv.objective, hv.isSef⟩

end LinHeap
end Pytimize
