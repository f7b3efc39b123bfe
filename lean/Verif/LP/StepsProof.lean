/-
Lemmas about the step log: what each method records, and that recording does not change what it returns.
-/
import Verif.LP.Steps
import Verif.LP.Bland
import Verif.LP.ReprProof

namespace Pytimize
namespace LinProg
open Comparator

variable {m n : ℕ} {α β : Type}

/-- The computation ends with `r` and appends `l` to the log, whatever the log is. -/
def Acts (x : Rec α) (r : Except PyErr α) (l : List Step) : Prop := ∀ s, x s = (r, s ++ l)

theorem Acts.pure (a : α) : Acts (Pure.pure a : Rec α) (.ok a) [] := fun s => by
  rw [List.append_nil]; rfl

theorem Acts.raise (e : PyErr) : Acts (Rec.raise e : Rec α) (.error e) [] := fun s => by
  rw [List.append_nil]; rfl

theorem Acts.lift (x : Except PyErr α) : Acts (Rec.lift x) x [] := fun s => by
  rw [List.append_nil]; rfl

theorem Acts.bind {x : Rec α} {f : α → Rec β} {a : α} {r : Except PyErr β} {l l' : List Step}
    (h : Acts x (.ok a) l) (h' : Acts (f a) r l') : Acts (x >>= f) r (l ++ l') := fun s => by
  show Rec.bind x f s = _
  unfold Rec.bind
  rw [h s]
  show f a (s ++ l) = _
  rw [h', List.append_assoc]

theorem Acts.seq {x : Rec Unit} {y : Rec β} {r : Except PyErr β} {l l' : List Step}
    (h : Acts x (.ok ()) l) (h' : Acts y r l') : Acts (x >>= fun _ => y) r (l ++ l') := h.bind h'

theorem Acts.bind_error {x : Rec α} {f : α → Rec β} {e : PyErr} {l : List Step}
    (h : Acts x (.error e) l) : Acts (x >>= f) (.error e) l := fun s => by
  show Rec.bind x f s = _
  unfold Rec.bind
  rw [h s]

theorem Acts.onCopy_ok {x : Rec α} {a : α} {l : List Step} (h : Acts x (.ok a) l) (s : List Step) :
    Rec.onCopy x s = (.ok (a, s ++ l), s) := by
  unfold Rec.onCopy
  rw [h s]

theorem Acts.onCopy_error {x : Rec α} {e : PyErr} {l : List Step} (h : Acts x (.error e) l) :
    Acts (Rec.onCopy x) (.error e) [] := fun s => by
  unfold Rec.onCopy
  rw [h s, List.append_nil]

/-! ### Rendering -/

/-- The number of placeholders. -/
def placeholders : List Char → ℕ
  | [] => 0
  | '{' :: '}' :: t => placeholders t + 1
  | _ :: t => placeholders t

theorem fill_ok (t : List Char) (as : List Arg) (hn : placeholders t ≤ as.length)
    (h : ∀ a ∈ as, ∃ s, a.text = .ok s) : ∃ s, fill t as = .ok s := by
  fun_induction fill t as with
  | case1 as => exact ⟨_, rfl⟩
  | case2 t a as e he =>
    obtain ⟨s, hs⟩ := h a (List.mem_cons_self)
    rw [hs] at he
    cases he
  | case3 t a as s hs e he ih =>
    obtain ⟨r, hr⟩ := ih (by simp only [placeholders, List.length_cons] at hn; omega)
      fun b hb => h b (List.mem_cons_of_mem _ hb)
    rw [hr] at he
    cases he
  | case4 t a as s hs r hr ih => exact ⟨_, rfl⟩
  | case5 t => simp [placeholders] at hn
  | case6 c t as h1 h2 e he ih =>
    obtain ⟨r, hr⟩ := ih (by
      rw [placeholders] at hn
      · exact hn
      · intro t' hc ht
        subst hc ht
        cases as with
        | nil => exact h2 t' rfl rfl rfl
        | cons a as => exact h1 t' a as rfl rfl rfl) h
    rw [hr] at he
    cases he
  | case7 c t as h1 h2 r hr ih => exact ⟨_, rfl⟩

/-- What is recorded for an entity. -/
def stepOf (e : Entity) : Step := ⟨e.key, (renderDescriptor e.key e.args).toOption.getD []⟩

/-- The entity can be rendered. -/
structure Good (e : Entity) : Prop where
  renders : ∃ t, renderDescriptor e.key e.args = .ok t

/-- The key is known and its text has at most `k` placeholders. -/
def Takes (key : String) (k : ℕ) : Bool :=
  match Dict.get? templates key with
  | some t => decide (placeholders t.toList ≤ k)
  | none => false

theorem good_of {e : Entity} (h : Takes e.key e.args.length = true) (ha : ∀ a ∈ e.args, ∃ s, a.text = .ok s) :
    Good e := by
  unfold Takes at h
  constructor
  unfold renderDescriptor
  split at h
  · rename_i t ht
    rw [ht]
    exact fill_ok _ _ (of_decide_eq_true h) ha
  · cases h

/-- The parts of a template between its placeholders. -/
def pieces : List Char → List (List Char)
  | [] => [[]]
  | '{' :: '}' :: t => [] :: pieces t
  | c :: t => (c :: (pieces t).headD []) :: (pieces t).tail

/-- The parts with texts between them. -/
def weave : List (List Char) → List (List Char) → List Char
  | [], _ => []
  | p :: _, [] => p
  | [p], _ => p
  | p :: q :: ps, a :: as => p ++ a ++ weave (q :: ps) as

theorem good_str {k : String} (h : Takes k (k.toList.length - 1) = true) : Good (.str k) := by
  refine good_of ?_ ?_
  · simpa [Entity.args, Entity.key] using h
  · intro a ha
    obtain ⟨c, -, rfl⟩ := List.mem_map.mp ha
    exact ⟨_, rfl⟩

theorem good_one {k : String} {a : Arg} (h : Takes k 1 = true) (ha : ∃ s, a.text = .ok s) : Good (.tup k [a]) := by
  refine good_of h ?_
  intro b hb
  rw [List.mem_singleton.mp hb]
  exact ha

theorem good_two {k : String} {a b : Arg} (h : Takes k 2 = true) (ha : ∃ s, a.text = .ok s) (hb : ∃ s, b.text = .ok s) :
    Good (.tup k [a, b]) := by
  refine good_of h ?_
  intro c hc
  rcases List.mem_cons.mp hc with rfl | hc
  · exact ha
  · rw [List.mem_singleton.mp hc]
    exact hb

theorem v_text (T : Texts) {k : ℕ} (x : Fin k → ℚ) : ∃ s, (T.v x).text = .ok s := ⟨_, rfl⟩

theorem M_text (T : Texts) {k l : ℕ} (X : Matrix (Fin k) (Fin l) ℚ) : ∃ s, (T.M X).text = .ok s := ⟨_, rfl⟩

theorem plain_text (s : List Char) : ∃ t, (Arg.plain s).text = .ok t := ⟨_, rfl⟩

/-- What is recorded with the flag `showSteps`. -/
def record (showSteps : Bool) (l : List Entity) : List Step := if showSteps then l.map stepOf else []

theorem record_append (b : Bool) (l l' : List Entity) : record b l ++ record b l' = record b (l ++ l') := by
  unfold record
  cases b <;> simp

theorem record_nil (b : Bool) : record b [] = [] := by cases b <;> rfl

theorem acts_appendStep {e : Entity} (h : Good e) : Acts (appendStep e) (.ok ()) [stepOf e] := by
  intro s
  obtain ⟨t, ht⟩ := h.renders
  unfold appendStep stepOf
  rw [ht]
  rfl

theorem acts_note {e : Entity} (b : Bool) (h : Good e) : Acts (note b e) (.ok ()) (record b [e]) := by
  unfold note record
  cases b
  · exact Acts.pure ()
  · exact acts_appendStep h

theorem acts_appendSteps {l : List (Option Entity)} (h : ∀ e, some e ∈ l → Good e) :
    Acts (appendSteps l) (.ok ()) ((l.filterMap id).map stepOf) := by
  induction l with
  | nil => exact Acts.pure ()
  | cons o l ih =>
    have ih := ih fun e he => h e (List.mem_cons_of_mem _ he)
    cases o with
    | none => exact ih
    | some e =>
      exact Acts.bind (acts_appendStep (h e (List.mem_cons_self))) ih

theorem acts_notes {l : List (Option Entity)} (b : Bool) (h : ∀ e, some e ∈ l → Good e) :
    Acts (notes b l) (.ok ()) (record b (l.filterMap id)) := by
  unfold notes record
  cases b
  · exact Acts.pure ()
  · exact acts_appendSteps h

/-- `Acts` with another description of the log. -/
theorem Acts.congr {x : Rec α} {r r' : Except PyErr α} {l l' : List Step} (h : Acts x r l) (hr : r = r') (hl : l = l') :
    Acts x r' l' := by
  subst hr hl
  exact h

/-! ### `is_feasible` -/

/-- The steps of `is_feasible` after the question. -/
def verdictNotes (T : Texts) (P : LP m n) (v : Fin n → ℚ) : List Entity :=
  if P.isSef then
    if isFeasibleVec P v then [.tup "2.02" [T.v v], .str "2.03", .tup "2.04" [T.v v], .str "2.05"]
    else [.tup "2.06" [T.v v], .str "2.03"] ++
      (if ∀ j, pyCmp (v j) .ge 0 = true then [] else [.tup "2.07" [T.v v]]) ++
      (if ∀ i, npIsClose ((P.A.mulVec v) i) (P.b i) = true then [] else [.str "2.08"])
  else if isFeasibleVec P v then [.tup "2.02" [T.v v], .str "2.14", .str "2.15"]
  else []

/-- The steps of `is_feasible` for a vector of the right size. -/
def feasibleNotes (T : Texts) (P : LP m n) (v : Fin n → ℚ) : List Entity :=
  .tup "2.01" [T.v v] :: verdictNotes T P v

theorem isFeasibleRec_acts (T : Texts) (b : Bool) (P : LP m n) {x : List ℚ} {v : Fin n → ℚ} (hx : toVec n x = some v) :
    Acts (isFeasibleRec T b P x) (.ok (isFeasibleVec P v)) (record b (feasibleNotes T P v)) := by
  unfold isFeasibleRec
  rw [hx]
  dsimp only
  have h1 : Good (.tup "2.01" [T.v v]) := good_one (by decide +kernel) (v_text T v)
  have h2 : Good (.tup "2.02" [T.v v]) := good_one (by decide +kernel) (v_text T v)
  have h3 : Good (.str "2.03") := good_str (by decide +kernel)
  have h4 : Good (.tup "2.04" [T.v v]) := good_one (by decide +kernel) (v_text T v)
  have h5 : Good (.str "2.05") := good_str (by decide +kernel)
  have h6 : Good (.tup "2.06" [T.v v]) := good_one (by decide +kernel) (v_text T v)
  have h7 : Good (.tup "2.07" [T.v v]) := good_one (by decide +kernel) (v_text T v)
  have h8 : Good (.str "2.08") := good_str (by decide +kernel)
  have h14 : Good (.str "2.14") := good_str (by decide +kernel)
  have h15 : Good (.str "2.15") := good_str (by decide +kernel)
  refine ((acts_note b h1).seq (y := _) (r := .ok (isFeasibleVec P v)) (l' := record b (verdictNotes T P v)) ?_).congr rfl
    (record_append b [Entity.tup "2.01" [T.v v]] (verdictNotes T P v))
  unfold verdictNotes isFeasibleVec
  by_cases hs : P.isSef = true
  · rw [if_pos hs, if_pos hs]
    by_cases ha : ∀ j, pyCmp (v j) .ge 0 = true <;>
      by_cases hc : ∀ i, npIsClose ((P.A.mulVec v) i) (P.b i) = true
    · simp only [ha, hc, hs, implies_true, decide_true, Bool.and_self, Bool.and_true, Bool.not_true, Bool.and_false, if_true]
      refine ((acts_notes b ?_).seq ((acts_notes false ?_).seq (Acts.pure true))).congr rfl ?_
      · intro e he; simp at he; rcases he with rfl | rfl | rfl | rfl; exacts [h2, h3, h4, h5]
      · intro e he; simp at he; rcases he with rfl | rfl; exacts [h6, h3]
      · simp [record]
    · simp only [ha, hc, hs, implies_true, decide_true, decide_false, Bool.and_false, Bool.and_true, Bool.not_true, Bool.not_false, if_true, if_false]
      refine ((acts_notes false ?_).seq ((acts_notes b ?_).seq (Acts.pure false))).congr rfl ?_
      · intro e he; simp at he; rcases he with rfl | rfl | rfl | rfl; exacts [h2, h3, h4, h5]
      · intro e he; simp at he; rcases he with rfl | rfl | rfl; exacts [h6, h3, h8]
      · simp [record]
    · simp only [ha, hc, hs, implies_true, decide_true, decide_false, Bool.and_false, Bool.and_true, Bool.not_true, Bool.not_false, if_true, if_false]
      refine ((acts_notes false ?_).seq ((acts_notes b ?_).seq (Acts.pure false))).congr rfl ?_
      · intro e he; simp at he; rcases he with rfl | rfl | rfl | rfl; exacts [h2, h3, h4, h5]
      · intro e he; simp at he; rcases he with rfl | rfl | rfl; exacts [h6, h3, h7]
      · simp [record]
    · simp only [ha, hc, hs, decide_false, Bool.and_false, Bool.and_true, Bool.not_false, if_true, if_false]
      refine ((acts_notes false ?_).seq ((acts_notes b ?_).seq (Acts.pure false))).congr rfl ?_
      · intro e he; simp at he; rcases he with rfl | rfl | rfl | rfl; exacts [h2, h3, h4, h5]
      · intro e he; simp at he; rcases he with rfl | rfl | rfl | rfl; exacts [h6, h3, h7, h8]
      · simp [record]
  · rw [if_neg hs, if_neg hs, if_neg hs]
    generalize hd : (decide (∀ j : Fin n, if (j : ℕ) ∈ P.neg then v j ≤ 0 else if (j : ℕ) ∉ P.free then v j ≥ 0 else True) &&
          decide (∀ i, rowOk (P.ineq i) ((P.A.mulVec v) i) (P.b i) = true)) = d
    cases d
    · simp only [Bool.false_eq_true, if_false]
      exact (Acts.pure false).congr rfl (by simp [record])
    · simp only [if_true]
      refine ((acts_notes b ?_).seq (Acts.pure true)).congr rfl ?_
      · intro e he; simp at he; rcases he with rfl | rfl | rfl; exacts [h2, h14, h15]
      · simp

theorem isFeasibleRec_result (T : Texts) (b : Bool) (P : LP m n) (x : List ℚ) :
    ∃ l, Acts (isFeasibleRec T b P x) (isFeasible P x) (record b l) := by
  unfold isFeasible
  cases hx : toVec n x with
  | none =>
    refine ⟨[], ?_⟩
    unfold isFeasibleRec
    rw [hx]
    exact (Acts.raise _).congr rfl (record_nil b).symm
  | some v => exact ⟨_, isFeasibleRec_acts T b P hx⟩

/-! ### `is_basic_solution` -/

/-- The columns outside the basis that are not zero. -/
def badColumns (basis : List ℤ) (x : Fin n → ℚ) (l : List (Fin n)) : List (Fin n) :=
  l.filter fun j => decide (((j : ℕ) : ℤ) ∉ basis ∧ isCloseToZero (x j) = false)

theorem good_column (j : ℕ) : Good (.tup "4.02" [.plain (natChars (j + 1))]) :=
  good_one (by decide +kernel) (plain_text _)

theorem columnsRec_acts (b : Bool) (basis : List ℤ) (x : Fin n → ℚ) (l : List (Fin n)) (r : Bool) :
    Acts (columnsRec b basis x l r) (.ok (r && (badColumns basis x l).isEmpty))
      (record b ((badColumns basis x l).map fun j : Fin n => Entity.tup "4.02" [.plain (natChars (j + 1))])) := by
  induction l generalizing r with
  | nil =>
    unfold columnsRec badColumns
    exact (Acts.pure r).congr (by simp) (by simp [record_nil])
  | cons j l ih =>
    unfold columnsRec badColumns
    by_cases h : ((j : ℕ) : ℤ) ∉ basis ∧ isCloseToZero (x j) = false
    · rw [if_pos h, List.filter_cons_of_pos (by simpa using h)]
      refine ((acts_note b (good_column j)).seq (ih false)).congr (by simp) ?_
      rw [record_append]
      rfl
    · rw [if_neg h, List.filter_cons_of_neg (by simpa using h)]
      exact ih r

/-- The steps of `is_basic_solution`. -/
def basicNotes (T : Texts) (P : LP m n) (v : Fin n → ℚ) (basis : List ℤ) : List Entity :=
  let bad := badColumns (toArrayIndexing basis) v (List.finRange n)
  let solves := decide (∀ i, npIsClose ((P.A.mulVec v) i) (P.b i) = true)
  [.tup "4.01" [.plain (T.ints basis)]] ++
    (bad.map fun j : Fin n => Entity.tup "4.02" [.plain (natChars (j + 1))]) ++
    (if solves then [] else [.str "4.03"]) ++
    if bad.isEmpty && solves then
      [.str "4.06", .str "4.07", .tup "4.04" [T.v v, .plain (T.ints (toArrayIndexing basis))]]
    else [.tup "4.05" [T.v v, .plain (T.ints (toArrayIndexing basis))]]

theorem isBasicSolutionRec_acts (T : Texts) (b : Bool) (P : LP m n) {x : List ℚ} {v : Fin n → ℚ} {basis : List ℤ}
    (hs : P.isSef = true) (hx : toVec n x = some v) (hB : isBasis P basis = .ok true) :
    Acts (isBasicSolutionRec T b P x basis)
      (.ok ((badColumns (toArrayIndexing basis) v (List.finRange n)).isEmpty &&
        decide (∀ i, npIsClose ((P.A.mulVec v) i) (P.b i) = true))) (record b (basicNotes T P v basis)) := by
  unfold isBasicSolutionRec basicNotes
  rw [hs, hx, hB]
  have h1 : Good (.tup "4.01" [.plain (T.ints basis)]) := good_one (by decide +kernel) (plain_text _)
  have h3 : Good (.str "4.03") := good_str (by decide +kernel)
  have h4 : Good (.tup "4.04" [T.v v, .plain (T.ints (toArrayIndexing basis))]) :=
    good_two (by decide +kernel) (v_text T v) (plain_text _)
  have h5 : Good (.tup "4.05" [T.v v, .plain (T.ints (toArrayIndexing basis))]) :=
    good_two (by decide +kernel) (v_text T v) (plain_text _)
  have h6 : Good (.str "4.06") := good_str (by decide +kernel)
  have h7 : Good (.str "4.07") := good_str (by decide +kernel)
  simp only [Bool.not_true, Bool.false_eq_true, if_false]
  generalize hd : decide (∀ i, npIsClose ((P.A.mulVec v) i) (P.b i) = true) = d
  have hc := columnsRec_acts b (toArrayIndexing basis) v (List.finRange n) true
  rw [Bool.true_and] at hc
  generalize hg : badColumns (toArrayIndexing basis) v (List.finRange n) = g at hc ⊢
  generalize g.isEmpty = e at hc ⊢
  generalize hn : (g.map fun j : Fin n => Entity.tup "4.02" [.plain (natChars (j + 1))]) = cn at hc ⊢
  rw [← record_append, ← record_append, ← record_append]
  refine ((Acts.lift _).bind ((acts_note b h1).seq (hc.bind (l' := (record b (if d = true then [] else [.str "4.03"])) ++
    record b (if (e && d) = true then
      [.str "4.06", .str "4.07", .tup "4.04" [T.v v, .plain (T.ints (toArrayIndexing basis))]]
      else [.tup "4.05" [T.v v, .plain (T.ints (toArrayIndexing basis))]])) ?_))).congr rfl ?_
  · cases d
    · simp only [Bool.not_false, if_true, Bool.and_false, Bool.false_eq_true, if_false, Bool.and_true]
      refine ((acts_note b h3).seq ((acts_note b h5).seq ((acts_notes false ?_).seq (Acts.pure false)))).congr rfl ?_
      · intro e he; simp at he; rcases he with rfl | rfl | rfl; exacts [h6, h7, h4]
      · simp [record]
    · simp only [Bool.not_true, Bool.false_eq_true, if_false, if_true, Bool.and_true]
      cases e
      · simp only [Bool.not_false, Bool.and_true, Bool.and_false, Bool.false_eq_true, if_false]
        refine (((acts_note b h5).seq ((acts_notes false ?_).seq (Acts.pure false)))).congr rfl ?_
        · intro e he; simp at he; rcases he with rfl | rfl | rfl; exacts [h6, h7, h4]
        · simp [record]
      · simp only [Bool.not_true, Bool.and_true, Bool.and_false, if_true]
        refine (((acts_note false h5).seq ((acts_notes b ?_).seq (Acts.pure true)))).congr rfl ?_
        · intro e he; simp at he; rcases he with rfl | rfl | rfl; exacts [h6, h7, h4]
        · simp [record]
  · simp [List.append_assoc]

theorem isBasicSolutionRec_result (T : Texts) (b : Bool) (P : LP m n) (x : List ℚ) (basis : List ℤ) :
    ∃ l, Acts (isBasicSolutionRec T b P x basis) (isBasicSolution P x basis) (record b l) := by
  unfold isBasicSolution
  by_cases hs : P.isSef = true
  · rw [hs]
    simp only [Bool.not_true, Bool.false_eq_true, if_false]
    cases hx : toVec n x with
    | none =>
      refine ⟨[], ?_⟩
      unfold isBasicSolutionRec
      rw [hs, hx]
      exact (Acts.raise _).congr rfl (record_nil b).symm
    | some v =>
      simp only
      rcases hB : isBasis P basis with e | d
      · refine ⟨[], ?_⟩
        unfold isBasicSolutionRec
        rw [hs, hx, hB]
        exact (Acts.lift _).bind_error.congr rfl (record_nil b).symm
      · cases d
        · refine ⟨[], ?_⟩
          unfold isBasicSolutionRec
          rw [hs, hx, hB]
          exact ((Acts.lift _).bind (Acts.raise _)).congr rfl (record_nil b).symm
        · refine ⟨_, (isBasicSolutionRec_acts T b P hs hx hB).congr ?_ rfl⟩
          simp only
          congr 2
          rw [Bool.eq_iff_iff, List.isEmpty_iff, decide_eq_true_iff]
          unfold badColumns
          rw [List.filter_eq_nil_iff]
          simp only [List.mem_finRange, decide_eq_true_eq, not_and, Bool.not_eq_false, true_implies]
  · refine ⟨[], ?_⟩
    unfold isBasicSolutionRec
    have : P.isSef = false := by simpa using hs
    rw [this]
    exact (Acts.raise _).congr rfl (record_nil b).symm

/-! ### Canonical form and SEF -/

/-- The steps of `__to_canonical_form`. -/
def canonNotes (T : Texts) (P : LP m n) (B : Fin m → Fin n) : List Entity :=
  [.tup "1.02" [T.M (colSel P.A B)], .tup "1.03" [T.v fun i => P.c (B i)], .tup "1.04" [T.M (npInv (colSel P.A B))],
    .tup "1.05" [T.v ((npInv (colSel P.A B)).transpose.mulVec fun i => P.c (B i))]]

theorem canonRec_acts (T : Texts) (b : Bool) (P : LP m n) (B : Fin m → Fin n) :
    Acts (canonRec T b P B) (.ok (canon P B)) (record b (canonNotes T P B)) := by
  unfold canonRec canonNotes
  refine ((acts_note b (good_one (by decide +kernel) (M_text T _))).seq
    ((acts_note b (good_one (by decide +kernel) (v_text T _))).seq
    ((acts_note b (good_one (by decide +kernel) (M_text T _))).seq
    ((acts_note b (good_one (by decide +kernel) (v_text T _))).seq (Acts.pure _))))).congr rfl ?_
  rw [List.append_nil, record_append, record_append, record_append]
  rfl

theorem toCanonicalFormRec_result (T : Texts) (b : Bool) (P : LP m n) (basis : List ℤ) :
    ∃ l, Acts (toCanonicalFormRec T b P basis) (toCanonicalForm P basis) (record b l) := by
  unfold toCanonicalForm toCanonicalFormRec
  by_cases hs : P.isSef = true
  · rw [hs]
    simp only [Bool.not_true, Bool.false_eq_true, if_false]
    have h1 : Good (.tup "1.01" [.plain (T.ints basis)]) := good_one (by decide +kernel) (plain_text _)
    rcases hB : isBasis P basis with e | d
    · exact ⟨_, ((acts_note b h1).seq (Acts.lift _).bind_error).congr rfl (List.append_nil _)⟩
    · cases d
      · exact ⟨_, ((acts_note b h1).seq ((Acts.lift _).bind (Acts.raise _))).congr rfl (List.append_nil _)⟩
      · cases hC : toCols m n (toArrayIndexing basis) with
        | none => exact ⟨_, ((acts_note b h1).seq ((Acts.lift _).bind (Acts.raise _))).congr rfl (List.append_nil _)⟩
        | some B =>
          exact ⟨_, ((acts_note b h1).seq ((Acts.lift _).bind (canonRec_acts T b P B))).congr rfl
            (by rw [List.nil_append, record_append])⟩
  · have : P.isSef = false := by simpa using hs
    rw [this]
    exact ⟨[], (Acts.raise _).congr rfl (record_nil b).symm⟩

/-- The steps of `to_sef`. -/
def sefNotes (T : Texts) (P : LP m n) : List Entity :=
  if P.isSef then []
  else if P.objective = .min then
    [.str "3.01", .str "3.02", .tup "3.03" [T.v fun j => -(-P.c j), T.v fun j => -P.c j]]
  else [.str "3.01"]

theorem toSefRec_acts (T : Texts) (b : Bool) (P : LP m n) :
    Acts (toSefRec T b P) (.ok (toSef P)) (record b (sefNotes T P)) := by
  unfold toSefRec sefNotes
  by_cases hs : P.isSef = true
  · rw [if_pos hs, if_pos hs]
    exact (Acts.pure _).congr rfl (record_nil b).symm
  · rw [if_neg hs, if_neg hs]
    have h1 : Good (.str "3.01") := good_str (by decide +kernel)
    have h2 : Good (.str "3.02") := good_str (by decide +kernel)
    have h3 : Good (.tup "3.03" [T.v fun j => -(-P.c j), T.v fun j => -P.c j]) :=
      good_two (by decide +kernel) (v_text T _) (v_text T _)
    by_cases ho : P.objective = .min
    · simp only [if_pos ho]
      refine ((acts_note b h1).seq ((acts_notes b ?_).seq (Acts.pure _))).congr rfl ?_
      · intro e he; simp at he; rcases he with rfl | rfl; exacts [h2, by simpa using h3]
      · rw [List.append_nil, record_append]
        rfl
    · simp only [if_neg ho]
      exact ((acts_note b h1).seq (Acts.pure _)).congr rfl (List.append_nil _)

/-! ### Simplex -/

theorem simplexIterationRec_result (T : Texts) (b : Bool) (P : LP m n) (basis : List ℤ) :
    ∃ l, Acts (simplexIterationRec T b P basis) (simplexIteration P basis) (record b l) := by
  unfold simplexIteration simplexIterationRec
  by_cases hs : P.isSef = true
  · rw [hs]
    simp only [Bool.not_true, Bool.false_eq_true, if_false]
    rcases hB : isBasis P basis with e | d
    · exact ⟨[], (Acts.lift _).bind_error.congr rfl (record_nil b).symm⟩
    · cases d
      · exact ⟨[], ((Acts.lift _).bind (Acts.raise _)).congr rfl (record_nil b).symm⟩
      · cases hC : toCols m n (sortInt (toArrayIndexing basis)) with
        | none => exact ⟨[], ((Acts.lift _).bind (Acts.raise _)).congr rfl (record_nil b).symm⟩
        | some B =>
          exact ⟨_, ((Acts.lift _).bind ((canonRec_acts T b _ B).bind (Acts.lift _))).congr rfl
            (by rw [List.nil_append, List.append_nil])⟩
  · have : P.isSef = false := by simpa using hs
    rw [this]
    exact ⟨[], (Acts.raise _).congr rfl (record_nil b).symm⟩

/-- The two notes about an iteration. -/
def iterationNotes (counter : ℕ) (P : LP m n) : List Entity :=
  [.tup "5.02" [.plain (natChars counter)], .tup "5.01" [.program (reprText P)]]

theorem program_text (hm : m ≠ 0) (P : LP m n) : ∃ s, (Arg.program (reprText P)).text = .ok s := by
  rw [Props.reprText_eq, if_neg hm]
  exact ⟨_, rfl⟩

theorem noteIteration_acts (hm : m ≠ 0) (b : Bool) (counter : ℕ) (P : LP m n) :
    Acts (noteIteration b counter P) (.ok ()) (record b (iterationNotes counter P)) := by
  unfold noteIteration iterationNotes
  exact ((acts_note b (good_one (by decide +kernel) (plain_text _))).seq
    (acts_note b (good_one (by decide +kernel) (program_text hm P)))).congr rfl (record_append b [_] [_])

/-- The notes about iterations `k`, `k + 1`, .... -/
def loopNotes : ℕ → List (LP m n) → List Entity
  | _, [] => []
  | k, P :: l => iterationNotes k P ++ loopNotes (k + 1) l

/-- The canonical forms the iterations of `simplex` go through. -/
def loopPrograms (P : LP m n) : ℕ → List ℤ → List (LP m n)
  | 0, _ => []
  | fuel + 1, basis =>
    match simplexIteration P basis with
    | .error _ => []
    | .ok (.next basis' C) => C :: loopPrograms P fuel basis'
    | .ok (.optimal _ _ C) => [C]
    | .ok (.unbounded _ _ C) => [C]

theorem loopPrograms_canon {P : LP m n} (fuel : ℕ) (basis : List ℤ) {C : LP m n} (h : C ∈ loopPrograms P fuel basis) :
    ∃ D, Monotone D ∧ tol ≤ |(colSel P.A D).det| ∧ C = canon P D := by
  induction fuel generalizing basis with
  | zero => cases h
  | succ fuel ih =>
    rw [loopPrograms] at h
    rcases hit : simplexIteration P basis with e | a
    · rw [hit] at h
      cases h
    · obtain ⟨hs, hb⟩ := simplexIteration_error hit
      obtain ⟨hm, B, hB, hd⟩ := (isBasis_iff P basis).mp hb
      have hspec := simplexIteration_spec hs hm hB hd
      rw [hit] at hspec h
      have hd' : tol ≤ |(colSel P.A (sortCols B)).det| := by rw [abs_det_sort]; exact hd
      cases hspec with
      | optimal _ _ => exact ⟨_, sortCols_mono B, hd', List.mem_singleton.mp h⟩
      | unbounded k _ _ _ _ => exact ⟨_, sortCols_mono B, hd', List.mem_singleton.mp h⟩
      | next k _ _ _ r _ _ B' _ _ =>
        rcases List.mem_cons.mp h with rfl | h
        · exact ⟨_, sortCols_mono B, hd', rfl⟩
        · exact ih _ h

theorem loopPrograms_last {P : LP m n} (fuel : ℕ) (basis : List ℤ) {r : Iter m n} (h : simplexLoop fuel P basis = .ok r) :
    (loopPrograms P fuel basis).getLast? = some r.lp := by
  induction fuel generalizing basis with
  | zero => cases h
  | succ fuel ih =>
    rw [simplexLoop] at h
    rw [loopPrograms]
    rcases hit : simplexIteration P basis with e | a
    · rw [hit] at h
      cases h
    · rw [hit] at h
      cases a with
      | optimal x l C =>
        rw [Except.ok.injEq] at h
        subst h
        rfl
      | unbounded x l C =>
        rw [Except.ok.injEq] at h
        subst h
        rfl
      | next l C =>
        simp only
        rw [List.getLast?_cons, ih l h]
        rfl

theorem simplexLoopRec_acts (hm : m ≠ 0) (T : Texts) (b : Bool) (P : LP m n) (fuel k : ℕ) (basis : List ℤ) :
    Acts (simplexLoopRec T b P fuel k basis) (simplexLoop fuel P basis)
      (record b (loopNotes (k + 1) (loopPrograms P fuel basis))) := by
  induction fuel generalizing k basis with
  | zero => exact (Acts.raise _).congr rfl (record_nil b).symm
  | succ fuel ih =>
    unfold simplexLoopRec simplexLoop loopPrograms
    obtain ⟨l, hl⟩ := simplexIterationRec_result T b P basis
    rcases hr : simplexIteration P basis with e | r
    · rw [hr] at hl
      exact hl.onCopy_error.bind_error.congr rfl (record_nil b).symm
    · rw [hr] at hl
      have step : ∀ {y : Iter m n → Rec (Iter m n)} {q : Except PyErr (Iter m n)} {l' : List Step},
          Acts (y r) q l' → Acts (Rec.onCopy (simplexIterationRec T b P basis) >>= fun r =>
            noteIteration b (k + 1) r.1.lp >>= fun _ => y r.1) q (record b (iterationNotes (k + 1) r.lp) ++ l') := by
        intro y q l' hy s
        show Rec.bind _ _ s = _
        unfold Rec.bind
        rw [hl.onCopy_ok s]
        exact ((noteIteration_acts hm b (k + 1) r.lp).seq hy) s
      cases r with
      | next basis' C =>
        have hCs := ih (k + 1) basis'
        refine (step (y := fun r => match r with
          | .next basis' _ => simplexLoopRec T b P fuel (k + 1) basis'
          | r => pure r) hCs).congr rfl ?_
        rw [record_append]
        rfl
      | optimal x basis' C =>
        refine (step (y := fun r => match r with
          | .next basis' _ => simplexLoopRec T b P fuel (k + 1) basis'
          | r => pure r) (Acts.pure _)).congr rfl ?_
        rw [List.append_nil, loopNotes, loopNotes, List.append_nil]
        rfl
      | unbounded x B C =>
        refine (step (y := fun r => match r with
          | .next basis' _ => simplexLoopRec T b P fuel (k + 1) basis'
          | r => pure r) (Acts.pure _)).congr rfl ?_
        rw [List.append_nil, loopNotes, loopNotes, List.append_nil]
        rfl

/-- The notes about the answer of `simplex`. -/
def answerNotes (T : Texts) : Except PyErr (Answer m n) → List Entity
  | .ok (.optimal x basis y) => [.tup "5.03" [T.v x], .tup "5.04" [.plain (T.ints basis)], .tup "5.06" [T.v y]]
  | .ok (.unbounded _ _) => [.str "5.05"]
  | _ => []

theorem simplexBodyRec_acts (hm : m ≠ 0) (T : Texts) (fuel : ℕ) (b : Bool) (P : LP m n) (S : Fin m → Bool) (basis : List ℤ) :
    Acts (simplexBodyRec T fuel b P S basis) (simplexBody fuel P S basis)
      (record b (loopNotes 0 (P :: loopPrograms P fuel basis) ++ answerNotes T (simplexBody fuel P S basis))) := by
  unfold simplexBodyRec simplexBody
  have hCs := simplexLoopRec_acts hm T b P fuel 0 basis
  have h0 := noteIteration_acts hm b 0 P
  rw [loopNotes, ← record_append, ← record_append, List.append_assoc]
  refine h0.seq ?_
  rcases hr : simplexLoop fuel P basis with e | r
  · rw [hr] at hCs
    exact hCs.bind_error.congr rfl (by show _ = _ ++ record b []; rw [record_nil, List.append_nil])
  · rw [hr] at hCs
    cases r with
    | next basis' C => exact hCs.bind ((Acts.raise _).congr rfl (record_nil b).symm)
    | unbounded x B C =>
      refine hCs.bind ?_
      cases hk : argmaxPos C.c with
      | none => simp only [hk]; exact (Acts.raise _).congr rfl (record_nil b).symm
      | some k =>
        simp only [hk]
        exact ((acts_note b (good_str (by decide +kernel))).seq (Acts.pure _)).congr rfl (List.append_nil _)
    | optimal x basis' C =>
      refine hCs.bind ?_
      cases hk : toCols m n (toArrayIndexing basis') with
      | none => simp only [hk]; exact (Acts.raise _).congr rfl (record_nil b).symm
      | some B =>
        simp only [hk]
        refine ((acts_note b (good_one (by decide +kernel) (v_text T _))).seq
          ((acts_note b (good_one (by decide +kernel) (plain_text _))).seq
          ((acts_note b (good_one (by decide +kernel) (v_text T _))).seq (Acts.pure _)))).congr rfl ?_
        rw [List.append_nil, record_append, record_append]
        rfl

theorem simplexRec_eq (hm : m ≠ 0) (T : Texts) (fuel : ℕ) (b : Bool) (P : LP m n) (basis : List ℤ) :
    ∃ Cs : List (LP m n), Cs = loopPrograms (flipRows (negRows P) P) fuel basis ∧
      ∀ s, simplexRec T fuel b P basis s = (simplex fuel P basis, s ++ record b
      (if P.isSef then loopNotes 0 (flipRows (negRows P) P :: Cs) ++ answerNotes T (simplex fuel P basis).1 else [])) := by
  unfold simplexRec simplex
  by_cases hs : P.isSef = true
  · have hCs := simplexBodyRec_acts hm T fuel b (flipRows (negRows P) P) (negRows P) basis
    refine ⟨_, rfl, fun s => ?_⟩
    rw [hs]
    simp only [Bool.not_true, Bool.false_eq_true, if_false, if_true]
    rw [hCs s]
    rcases simplexBody fuel (flipRows (negRows P) P) (negRows P) basis with e | a <;> rfl
  · refine ⟨_, rfl, fun s => ?_⟩
    have : P.isSef = false := by simpa using hs
    rw [this]
    simp [record_nil]

/-! ### Two phases and `solve` -/

theorem twoPhaseWithRec_eq (hm : m ≠ 0) (T : Texts) (fuel : ℕ) (b : Bool) {P : LP m n} (hs : P.isSef = true) (R : SefRes m) :
    ∃ l, ∀ sa s, twoPhaseWithRec T fuel b P R sa s =
      (twoPhaseWith fuel P R, s ++ record b (l ++ answerNotes T (twoPhaseWith fuel P R).1)) := by
  unfold twoPhaseWithRec twoPhaseWith
  obtain ⟨Cs, -, hCs⟩ := simplexRec_eq hm T fuel true R.lp ((List.range m).map fun i : ℕ => (n : ℤ) + i + 1)
  simp only [hCs]
  rcases (simplex fuel R.lp ((List.range m).map fun i : ℕ => (n : ℤ) + i + 1)).1 with e | (⟨x, l, y⟩ | _ | _)
  · exact ⟨[], fun sa s => by simp [record_nil, answerNotes]⟩
  · simp only
    by_cases hz : isCloseToZero (R.lp.c ⬝ᵥ x + R.lp.z) = true
    · simp only [if_pos hz]
      rcases isBasis P l with e | d
      · exact ⟨[], fun sa s => by simp [record_nil, answerNotes]⟩
      · cases d
        · simp only
          rcases completeBasis P ((List.ofFn x).take n) with e | l'
          · exact ⟨[], fun sa s => by simp [record_nil, answerNotes]⟩
          · obtain ⟨Ds, -, hDs⟩ := simplexRec_eq hm T fuel b P l'
            exact ⟨_, fun sa s => by simp only [hDs s, if_pos hs]; rfl⟩
        · obtain ⟨Ds, -, hDs⟩ := simplexRec_eq hm T fuel b P l
          exact ⟨_, fun sa s => by simp only [hDs s, if_pos hs]; rfl⟩
    · simp only [if_neg hz]
      cases toCols m R.n (toArrayIndexing l) with
      | none => exact ⟨[], fun sa s => by simp [record_nil, answerNotes]⟩
      | some B => exact ⟨[], fun sa s => by simp [record_nil, answerNotes]⟩
  · exact ⟨[], fun sa s => by simp [record_nil, answerNotes]⟩
  · exact ⟨[], fun sa s => by simp [record_nil, answerNotes]⟩

theorem twoPhaseRec_eq (hm : m ≠ 0) (T : Texts) (fuel : ℕ) (b : Bool) (P : LP m n) :
    ∃ l, ∀ s, twoPhaseRec T fuel b P s =
      (twoPhase fuel P, s ++ record b (l ++ answerNotes T (twoPhase fuel P).1)) := by
  unfold twoPhaseRec twoPhase
  by_cases hs : P.isSef = true
  · obtain ⟨l, hl⟩ := twoPhaseWithRec_eq hm T fuel b hs (toSef (auxLp P))
    refine ⟨l, fun s => ?_⟩
    rw [hs, toSefRec_acts T b (auxLp P) []]
    simp only [Bool.not_true, Bool.false_eq_true, if_false]
    exact hl _ s
  · refine ⟨[], fun s => ?_⟩
    have : P.isSef = false := by simpa using hs
    rw [this]
    simp [record_nil, answerNotes]

theorem solveSefRec_eq (hm : m ≠ 0) (T : Texts) (fuel : ℕ) (b : Bool) (R : SefRes m) (s : List Step) :
    solveSefRec T fuel b R s = solveSef fuel R := by
  unfold solveSefRec solveSef
  obtain ⟨l, hl⟩ := twoPhaseRec_eq hm T fuel b R.lp
  obtain ⟨Cs, -, hCs⟩ := simplexRec_eq hm T fuel b R.lp ((List.range (R.n - m)).map fun i : ℕ => (m : ℤ) + i + 1)
  simp only [hl s, hCs s]
  rfl

theorem solveRec_eq (hm : m ≠ 0) (T : Texts) (fuel : ℕ) (b : Bool) (P : LP m n) :
    ∃ l, ∀ s, solveRec T fuel b P s =
      (solve fuel P, s ++ if P.isSef then record true (l ++ answerNotes T (twoPhase fuel P).1) else []) := by
  unfold solveRec solve
  by_cases hs : P.isSef = true
  · obtain ⟨l, hl⟩ := twoPhaseRec_eq hm T fuel true P
    refine ⟨l, fun s => ?_⟩
    simp only [if_pos hs]
    rw [hl s]
    rcases twoPhase fuel P with ⟨e | a, Q⟩ <;> rfl
  · refine ⟨[], fun s => ?_⟩
    simp only [if_neg hs]
    rw [toSefRec_acts T b P s]
    simp only
    rw [solveSefRec_eq hm, List.append_nil]

end LinProg
end Pytimize
