/-
Formulations written with integers compile to integer programs, and integer answers survive the way back.
-/
import Verif.Float.GenerateInt
import Verif.Float.GenerateProgram
import Verif.Float.Sef
import Verif.Props.FormulationSolve

namespace Pytimize
namespace Floating
open Formulation
open LinProg
open Props (Simple InRange)

/-- An integer of absolute value at most `B`. -/
def IntUpTo (B : ℤ) (q : ℚ) : Prop := ∃ k : ℤ, q = k ∧ |k| ≤ B

theorem IntUpTo.rep {q : ℚ} (h : IntUpTo (2 ^ 53) q) : binary64.Rep q := by
  obtain ⟨k, rfl, hk⟩ := h
  exact binary64_rep.mpr (isDouble_int hk)

theorem IntUpTo.zero {B : ℤ} (hB : 0 ≤ B) : IntUpTo B 0 := ⟨0, by simp, by simpa using hB⟩

theorem IntUpTo.sub {B C : ℤ} {a b : ℚ} (ha : IntUpTo B a) (hb : IntUpTo C b) : IntUpTo (B + C) (a - b) := by
  obtain ⟨j, rfl, hj⟩ := ha
  obtain ⟨k, rfl, hk⟩ := hb
  exact ⟨j - k, by push_cast; rfl, (abs_sub j k).trans (by linarith)⟩

theorem IntUpTo.mono {B C : ℤ} (h : B ≤ C) {a : ℚ} (ha : IntUpTo B a) : IntUpTo C a := by
  obtain ⟨j, rfl, hj⟩ := ha
  exact ⟨j, rfl, hj.trans h⟩

/-! ### The rows of a compiled formulation -/

/-- The numbers of a constraint. -/
def ConUpTo (B : ℤ) : Con → Prop
  | .lin c => (∀ i, IntUpTo B (c.coeffs.getD i 0)) ∧ IntUpTo B c.const
  | _ => True

theorem coefficients_int {e : GEqn ℤ} (hw : e.terms.WF) (se : SmallEqn (2 ^ 52) e) {l : List ℚ}
    (hl : coefficients (e.read fun z : ℤ => (z : ℚ)).terms = some l) (i : ℕ) : IntUpTo (2 ^ 52) (l.getD i 0) := by
  have h0 : (e.read fun z : ℤ => (z : ℚ)).terms ≠ [] := by
    intro h
    rw [h] at hl
    cases hl
  obtain ⟨l', h1, -, h3⟩ := coefficients_getD h0 (vmap_WF (fun z : ℤ => (z : ℚ)) hw)
  rw [h1] at hl
  cases hl
  rw [h3]
  show IntUpTo (2 ^ 52) (Option.getD (Dict.get? (vmap (fun z : ℤ => (z : ℚ)) e.terms) i) 0)
  rw [vmap_get?]
  cases hg : e.terms.get? i with
  | none => exact IntUpTo.zero (by norm_num)
  | some k => exact ⟨k, rfl, se.1 _ (mem_of_get? hg)⟩

theorem generate_upTo (op : Ineq) {e f : GEqn ℤ} (he : e.terms.WF) (hf : f.terms.WF) (se : SmallEqn (2 ^ 52) e)
    (sf : SmallEqn (2 ^ 52) f) {c : LinCon}
    (hc : generate op (e.read fun z : ℤ => (z : ℚ)) (f.read fun z : ℤ => (z : ℚ)) = .ok c) :
    ConUpTo (2 ^ 53) (.lin c) := by
  unfold generate at hc
  have hle : (2 : ℤ) ^ 52 ≤ 2 ^ 53 := by norm_num
  have hk : IntUpTo (2 ^ 53) ((f.const : ℚ) - e.const) :=
    (IntUpTo.sub (B := 2 ^ 52) (C := 2 ^ 52) ⟨_, rfl, sf.2⟩ ⟨_, rfl, se.2⟩).mono (by norm_num)
  have he' := fun l => coefficients_int (l := l) he se
  have hf' := fun l => coefficients_int (l := l) hf sf
  rw [subtract_exact] at hc
  generalize coefficients (e.read fun z : ℤ => (z : ℚ)).terms = a at hc he'
  generalize coefficients (f.read fun z : ℤ => (z : ℚ)).terms = b at hc hf'
  cases a with
  | none =>
    cases b with
    | none => simp [subtractWith] at hc
    | some b =>
      simp only [subtractWith, Except.ok.injEq] at hc
      subst hc
      exact ⟨fun i => (hf' b rfl i).mono hle, hk⟩
  | some a =>
    cases b with
    | none =>
      simp only [subtractWith, Except.ok.injEq] at hc
      subst hc
      exact ⟨fun i => (he' a rfl i).mono hle, hk⟩
    | some b =>
      obtain ⟨d, h1, -, h3⟩ := subtract_spec (f := id) rfl a b
      rw [h1] at hc
      simp only [Except.ok.injEq] at hc
      subst hc
      refine ⟨fun i => ?_, hk⟩
      rw [h3]
      exact ((he' a rfl i).sub (hf' b rfl i)).mono (by norm_num)

theorem cmpEqn_upTo {h : GHeap ℤ} (hg : Good (toRat h)) (op : Ineq) {e : GEqn ℤ} (he : e.terms.WF)
    (se : SmallEqn (2 ^ 52) e) {w : GVal ℤ} (sw : SmallVal (2 ^ 52) h w) {c : Con}
    (hc : cmpEqn (toRat h) op (e.read fun z : ℤ => (z : ℚ)) (w.read fun z : ℤ => (z : ℚ)) = .ok c) :
    ConUpTo (2 ^ 53) c := by
  have key : ∀ f : GEqn ℤ, f.terms.WF → SmallEqn (2 ^ 52) f →
      (match generate op (e.read fun z : ℤ => (z : ℚ)) (f.read fun z : ℤ => (z : ℚ)) with
        | .error r => .error r
        | .ok c => .ok (.lin c) : Except PyErr Con) = .ok c → ConUpTo (2 ^ 53) c := by
    intro f hf sf h
    split at h
    · cases h
    · rename_i d hd
      cases h
      exact generate_upTo op he hf se sf hd
  cases w with
  | num q => exact key ⟨[], q⟩ List.nodup_nil ⟨by simp, sw⟩ hc
  | eqn b =>
    simp only [cmpEqn, GVal.read, deref_rat] at hc
    exact key (gderef intOps h b) (wf_deref hg b) sw hc
  | var k => cases hc
  | none => cases hc

theorem cmpVar_upTo {h : GHeap ℤ} (hg : Good (toRat h)) (op : Ineq) (k : ℕ) {w : GVal ℤ}
    (sw : SmallVal (2 ^ 52) h w) {c : Con}
    (hc : cmpVar (toRat h) op k (w.read fun z : ℤ => (z : ℚ)) = .ok c) : ConUpTo (2 ^ 53) c := by
  have key := cmpEqn_upTo hg op (e := ⟨[(k, 1)], 0⟩) (by simp [Dict.WF, Dict.keys]) ⟨by simp, by simp⟩ sw (c := c)
  have r1 : (⟨[(k, 1)], 0⟩ : GEqn ℤ).read (fun z : ℤ => (z : ℚ)) = ⟨[(k, 1)], 0⟩ := by simp [GEqn.read]
  rw [r1] at key
  unfold cmpVar at hc
  split at hc
  · split at hc
    · cases hc; trivial
    · rename_i e _; rw [e] at key; exact key hc
  · split at hc
    · cases hc; trivial
    · rename_i e _; rw [e] at key; exact key hc
  · exact key hc

theorem compare_upTo {h : GHeap ℤ} (hg : Good (toRat h)) (op : Ineq) {v w : GVal ℤ} (sv : SmallVal (2 ^ 52) h v)
    (sw : SmallVal (2 ^ 52) h w) {c : Con}
    (hc : Formulation.compare (toRat h) op (v.read fun z : ℤ => (z : ℚ)) (w.read fun z : ℤ => (z : ℚ)) = .ok c) :
    ConUpTo (2 ^ 53) c := by
  have he : ∀ (b : ℕ) (op : Ineq) (u : GVal ℤ), SmallVal (2 ^ 52) h (.eqn b) → SmallVal (2 ^ 52) h u →
      cmpEqn (toRat h) op (deref (toRat h) b) (u.read fun z : ℤ => (z : ℚ)) = .ok c → ConUpTo (2 ^ 53) c := by
    intro b op u sb su hu
    rw [deref_rat] at hu
    exact cmpEqn_upTo hg op (wf_deref hg b) sb su hu
  cases v with
  | num p =>
    cases w with
    | num q => cases hc; trivial
    | eqn b => exact he b _ (.num p) sw sv hc
    | var k => exact cmpVar_upTo hg _ k sv hc
    | none =>
      simp only [Formulation.compare, GVal.read] at hc
      split at hc <;> cases hc
      trivial
  | eqn a => exact he a op w sv sw (by cases w <;> exact hc)
  | var k => exact cmpVar_upTo hg op k sw (by cases w <;> exact hc)
  | none =>
    cases w with
    | num q =>
      simp only [Formulation.compare, GVal.read] at hc
      split at hc <;> cases hc
      trivial
    | eqn b => exact he b (Formulation.flip op) .none sw sv hc
    | var k => exact cmpVar_upTo hg _ k sv hc
    | none =>
      simp only [Formulation.compare, GVal.read] at hc
      split at hc <;> cases hc
      trivial

theorem compareExpr_upTo {h : GHeap ℤ} (hg : Good (toRat h)) (op : Ineq) {e f : GExpr ℤ} (he : SmallExpr e)
    (hf : SmallExpr f) {h' : Heap} {c : Con} (hc : compareExpr (toRat h) op (ratExpr e) (ratExpr f) = .ok (h', c)) :
    (∃ h2, h' = toRat h2 ∧ Good (toRat h2)) ∧ ConUpTo (2 ^ 53) c := by
  obtain ⟨h1, v, -, e2⟩ := eval_int hg he.simple
  obtain ⟨h2, w, -, f2⟩ := eval_int e2.step.good hf.simple
  have sv : SmallVal (2 ^ 52) h2 v := by
    refine (small_of_weight he.simple e2 he.weight).frame fun a ha => frame_rat (f2.step.frame a ?_ ?_)
    · have := e2.step.ok
      rw [ha] at this
      exact this
    · simp [hf.simple.closed]
  have sw := small_of_weight hf.simple f2 hf.weight
  simp only [compareExpr, e2.run, f2.run] at hc
  split at hc
  · cases hc
  · rename_i d hd
    cases hc
    exact ⟨⟨h2, rfl, f2.step.good⟩, compare_upTo f2.step.good op sv sw hd⟩

theorem evalCons_upTo {h : GHeap ℤ} (hg : Good (toRat h)) {l : List (Ineq × GExpr ℤ × GExpr ℤ)}
    (hl : ∀ t ∈ l, SmallExpr t.2.1 ∧ SmallExpr t.2.2) {h' : Heap} {cs : List Con}
    (hc : evalCons (toRat h) (ratCons l) = .ok (h', cs)) : ∀ c ∈ cs, ConUpTo (2 ^ 53) c := by
  induction l generalizing h h' cs with
  | nil => cases hc; simp
  | cons t l ih =>
    obtain ⟨s1, s2⟩ := hl t (List.mem_cons_self ..)
    simp only [ratCons, List.map_cons, evalCons] at hc
    split at hc
    · cases hc
    rename_i h1 c r1
    split at hc
    · cases hc
    rename_i h2 ds r2
    cases hc
    obtain ⟨⟨h3, rfl, hg3⟩, hk⟩ := compareExpr_upTo hg t.1 s1 s2 r1
    intro d hd
    rcases List.mem_cons.mp hd with rfl | hd
    · exact hk
    · exact ih hg3 (fun t ht => hl t (List.mem_cons_of_mem _ ht)) r2 d hd

/-- The arrays of the compiled program. -/
theorem compile_entries {O : Objective} {cs : List LinCon} {P P' : Abstract} {S : List VarCon} (hb : Built O cs P)
    (ha : After P S P') {Q : Prog} (hq : Formulation.compile P' = .ok (.linear Q)) (i : Fin Q.m) :
    ∃ c ∈ cs, (∀ j, Q.lp.A i j = c.coeffs.getD j 0) ∧ Q.lp.b i = c.const := by
  unfold Formulation.compile at hq
  simp only at hq
  generalize hr : ctor _ _ _ _ _ _ _ _ = r at hq
  rcases r with e | Q0
  · cases hq
  cases hq
  rw [ctor_iff] at hr
  obtain ⟨m, n, lp⟩ := Q
  obtain ⟨hmat, hrhs, -, -, -, -, -, -, -, -⟩ := hr
  simp only at hmat hrhs i
  have hrhs' : P'.b = List.ofFn lp.b := by
    rcases hrhs with h | h
    · simpa using h
    · cases h
  have hentry : ∀ (i : Fin m) (j : Fin n), lp.A i j = (P'.A.getD i []).getD j 0 := by
    rcases hmat with h | ⟨_, h⟩
    · injection h with h1 h2 h3
      subst h1 h2
      have h3 := eq_of_heq h3
      intro i j
      rw [← h3]
      simp [List.getD_eq_getElem?_getD]
    · cases h
  have hlen := hb.rows.length_eq
  have hbl : P'.b.length = cs.length := by rw [ha.b, hb.rhs]; simp
  have hi : (i : ℕ) < cs.length := by
    rw [← hbl, hrhs', List.length_ofFn]; exact i.2
  have hiA : (i : ℕ) < P.A.length := by rw [hlen]; exact hi
  obtain ⟨-, hd⟩ := forall₂_getElem hb.rows i hiA hi
  refine ⟨cs[(i : ℕ)], List.getElem_mem _, fun j => ?_, ?_⟩
  · rw [hentry, ha.A, ← dot_unit, List.getD_eq_getElem?_getD, List.getElem?_eq_getElem hiA, Option.getD_some, hd,
      dot_unit]
  · have := congrArg (fun l => l[(i : ℕ)]?) hrhs'
    rw [ha.b, hb.rhs] at this
    simpa [hi] using this.symm

theorem objVal_unit {m n : ℕ} (P : LP m n) (j : Fin n) : objVal P (fun k => unit (j : ℕ) k) = P.c j + P.z := by
  unfold objVal
  congr 1
  rw [dotProduct, Finset.sum_eq_single j]
  · simp [unit]
  · intro k _ hk
    have : (k : ℕ) ≠ j := fun h => hk (Fin.ext h)
    simp [unit, this]
  · simp

/-- The value of an integer expression at an integer point. -/
theorem at_int {p : Point} (hp : ∀ i, ∃ k : ℤ, p i = k) {e : GExpr ℤ} (hr : (ratExpr e).refs = []) :
    ∃ k : ℤ, (ratExpr e).at [] p = k := by
  induction e with
  | num k => exact ⟨k, rfl⟩
  | x i => exact hp _
  | var k => exact hp _
  | ref a => simp [GExpr.read, Expr.refs] at hr
  | pos e ih => exact ih hr
  | neg e ih =>
    obtain ⟨k, hk⟩ := ih hr
    exact ⟨-k, by show -(ratExpr e).at [] p = _; rw [hk]; push_cast; rfl⟩
  | add e f ih jh =>
    simp only [ratExpr, GExpr.read, Expr.refs, List.append_eq_nil_iff] at hr
    obtain ⟨j, hj⟩ := ih hr.1
    obtain ⟨k, hk⟩ := jh hr.2
    exact ⟨j + k, by show (ratExpr e).at [] p + (ratExpr f).at [] p = _; rw [hj, hk]; push_cast; rfl⟩
  | sub e f ih jh =>
    simp only [ratExpr, GExpr.read, Expr.refs, List.append_eq_nil_iff] at hr
    obtain ⟨j, hj⟩ := ih hr.1
    obtain ⟨k, hk⟩ := jh hr.2
    exact ⟨j - k, by show (ratExpr e).at [] p - (ratExpr f).at [] p = _; rw [hj, hk]; push_cast; rfl⟩
  | mul e f ih jh =>
    simp only [ratExpr, GExpr.read, Expr.refs, List.append_eq_nil_iff] at hr
    obtain ⟨j, hj⟩ := ih hr.1
    obtain ⟨k, hk⟩ := jh hr.2
    exact ⟨j * k, by show (ratExpr e).at [] p * (ratExpr f).at [] p = _; rw [hj, hk]; push_cast; rfl⟩

theorem at_upTo {p : Point} (hp : ∀ i, ∃ k : ℤ, p i = k) (hp1 : ∀ i, |p i| ≤ 1) {e : GExpr ℤ} (he : SmallExpr e) :
    IntUpTo (2 ^ 51) ((ratExpr e).at [] p) := by
  obtain ⟨k, hk⟩ := at_int hp he.simple.closed
  have h1 := at_le_weight [] hp1 he.simple.closed
  rw [hk] at h1 ⊢
  refine ⟨k, rfl, le_trans ?_ he.weight⟩
  exact_mod_cast h1

/-- All numbers of a program are integers of moderate size. -/
structure WholeLP {m n : ℕ} (P : LP m n) : Prop where
  A : ∀ i j, IntUpTo (2 ^ 53) (P.A i j)
  b : ∀ i, IntUpTo (2 ^ 53) (P.b i)
  c : ∀ j, IntUpTo (2 ^ 53) (P.c j)
  z : IntUpTo (2 ^ 53) P.z

theorem compiled_whole {pk : Package} {o : Obj} {obj : GExpr ℤ} (ho : SmallExpr obj)
    {l : List (Ineq × GExpr ℤ × GExpr ℤ)} (hl : ∀ t ∈ l, SmallExpr t.2.1 ∧ SmallExpr t.2.2) {P : Abstract}
    (hP : formulate pk o [] (ratExpr obj) (ratCons l) = .ok P) {cs : List Call} (hacc : Accepted P cs)
    (hin : InRange P.c.length (signsOf cs)) {Q : Prog} (hq : (getProgram (calls P cs)).2 = .ok (.linear Q)) :
    WholeLP Q.lp := by
  have hg : Good (toRat []) := by intro e he; simp at he
  obtain ⟨Q', hQ', -, hspec⟩ := Props.C64_text_partial hg hP ho.simple
    (fun t ht => by
      obtain ⟨s, hs, rfl⟩ := List.mem_map.mp ht
      exact ⟨(hl s hs).1.simple, (hl s hs).2.simple⟩) hacc hq hin
  cases hQ'
  have h0 := (hspec fun _ => 0).1
  have hz : objVal Q.lp (fun _ => 0) = Q.lp.z := by simp [objVal, dotProduct]
  rw [hz] at h0
  have kz : IntUpTo (2 ^ 51) Q.lp.z := h0 ▸ at_upTo (fun _ => ⟨0, by simp⟩) (by simp) ho
  obtain ⟨h1, v, -, e2⟩ := eval_int hg ho.simple
  have hr : eval [] (ratExpr obj) = .ok (toRat h1, v.read fun z : ℤ => (z : ℚ)) := e2.run
  have hP' := hP
  simp only [formulate, hr] at hP'
  split at hP'
  · cases hP'
  split at hP'
  · cases hP'
  rename_i h2 ds hds
  have hup := evalCons_upTo e2.step.good hl hds
  obtain ⟨ls, rfl, hb, hpos, hneg, hprog, -⟩ := subjectTo_ok hP'
  have hfr : Fresh P := fun q hq => by rw [hprog] at hq; cases hq
  obtain ⟨ha, hf, -⟩ := calls_accepted hacc hfr (by rw [hpos, hneg]; exact Props.consistent_nil)
  rw [getProgram_fresh hf] at hq
  have hrow := compile_entries hb ha hq
  refine ⟨fun i j => ?_, fun i => ?_, fun j => ?_, kz.mono (by norm_num)⟩
  · obtain ⟨c, hc, k1, -⟩ := hrow i
    rw [k1]
    exact (hup _ (List.mem_map.mpr ⟨c, hc, rfl⟩)).1 j
  · obtain ⟨c, hc, -, k2⟩ := hrow i
    rw [k2]
    exact (hup _ (List.mem_map.mpr ⟨c, hc, rfl⟩)).2
  · have h3 := (hspec (unit j)).1
    rw [objVal_unit] at h3
    have h4 : IntUpTo (2 ^ 51) ((ratExpr obj).at [] (unit j)) :=
      at_upTo (fun i => by unfold unit; split; exacts [⟨1, by simp⟩, ⟨0, by simp⟩])
        (fun i => by unfold unit; split <;> simp) ho
    rw [show Q.lp.c j = (ratExpr obj).at [] (unit j) - Q.lp.z from by rw [← h3]; ring]
    exact (h4.sub kz).mono (by norm_num)

theorem WholeLP.stored {m n : ℕ} {P : LP m n} (h : WholeLP P) : Stored binary64 P :=
  ⟨fun i j => (h.A i j).rep, fun i => (h.b i).rep, fun j => (h.c j).rep, h.z.rep⟩

/-! ### Conversions keep integers -/

/-- Truncation to integers, as a rounding: its "floats" are the integers. -/
def toInteger : Rounding where
  rd x := if 0 ≤ x then (⌊x⌋ : ℚ) else (⌈x⌉ : ℚ)
  u := 0
  tiny := 1
  u_nonneg := le_rfl
  tiny_nonneg := zero_le_one
  mono := by
    intro x y h
    split <;> split
    · exact_mod_cast Int.floor_mono h
    · linarith
    · have h1 : ⌈x⌉ ≤ 0 := Int.ceil_le.mpr (by push_cast; linarith)
      have h2 : 0 ≤ ⌊y⌋ := Int.floor_nonneg.mpr (by assumption)
      exact_mod_cast h1.trans h2
    · exact_mod_cast Int.ceil_mono h
  idem := by
    intro x
    split <;> split <;> simp
  odd := by
    intro x
    rcases lt_trichotomy x 0 with h | rfl | h
    · rw [if_pos (by linarith), if_neg (by linarith), Int.floor_neg]; push_cast; rfl
    · simp
    · rw [if_neg (by linarith), if_pos (by linarith), Int.ceil_neg]; push_cast; rfl
  err := by
    intro x
    rw [zero_mul, zero_add, abs_le]
    split
    · have h1 := Int.floor_le x
      have h2 := Int.lt_floor_add_one x
      constructor <;> linarith
    · have h1 := Int.le_ceil x
      have h2 := Int.ceil_lt_add_one x
      constructor <;> linarith

theorem toInteger_rep {x : ℚ} : toInteger.Rep x ↔ ∃ k : ℤ, x = k := by
  constructor
  · intro h
    have h : (if 0 ≤ x then (⌊x⌋ : ℚ) else (⌈x⌉ : ℚ)) = x := h
    split at h
    · exact ⟨_, h.symm⟩
    · exact ⟨_, h.symm⟩
  · rintro ⟨k, rfl⟩
    show (if 0 ≤ (k : ℚ) then (⌊(k : ℚ)⌋ : ℚ) else (⌈(k : ℚ)⌉ : ℚ)) = k
    split <;> simp

theorem IntUpTo.int {B : ℤ} {q : ℚ} (h : IntUpTo B q) : ∃ k : ℤ, q = k := by
  obtain ⟨k, hk, -⟩ := h
  exact ⟨k, hk⟩

theorem WholeLP.sef {m n : ℕ} {P : LP m n} (h : WholeLP P) :
    (∀ i j, ∃ k : ℤ, (toSef P).lp.A i j = k) ∧ (∀ i, ∃ k : ℤ, (toSef P).lp.b i = k) ∧
      (∀ j, ∃ k : ℤ, (toSef P).lp.c j = k) ∧ ∃ k : ℤ, (toSef P).lp.z = k := by
  have h1 : Stored toInteger P := ⟨fun i j => toInteger_rep.mpr (h.A i j).int, fun i => toInteger_rep.mpr (h.b i).int,
    fun j => toInteger_rep.mpr (h.c j).int, toInteger_rep.mpr h.z.int⟩
  obtain ⟨-, h2⟩ := ftoSef_eq (toInteger_rep.mpr ⟨1, by simp⟩) h1
  exact ⟨fun i j => toInteger_rep.mp (h2.A i j), fun i => toInteger_rep.mp (h2.b i),
    fun j => toInteger_rep.mp (h2.c j), toInteger_rep.mp h2.z⟩

theorem merge_upTo {B : ℤ} (l : List ℕ) (hl : l.Pairwise (· < ·)) (a : ℕ) (hla : ∀ f ∈ l, a ≤ f) {x : ℕ → ℚ}
    (hx : ∀ j, IntUpTo B (x j)) (h0 : ∀ j, a ≤ j → 0 ≤ x j) (j : ℕ) : IntUpTo B (l.foldl mergeAt x j) := by
  induction l generalizing a x with
  | nil => exact hx j
  | cons f l ih =>
    obtain ⟨h1, h2⟩ := List.pairwise_cons.mp hl
    have hf := hla f List.mem_cons_self
    rw [List.foldl_cons]
    refine ih h2 (f + 1) (fun g hg => h1 g hg) (fun j => ?_) fun j hj => ?_
    · unfold mergeAt
      split
      · exact hx j
      · split
        · obtain ⟨p, hp, hp'⟩ := hx f
          obtain ⟨q, hq, hq'⟩ := hx (f + 1)
          have p0 := h0 f hf
          have q0 := h0 (f + 1) (by omega)
          rw [hp] at p0
          rw [hq] at q0
          have p0 : 0 ≤ p := by exact_mod_cast p0
          have q0 : 0 ≤ q := by exact_mod_cast q0
          rw [abs_of_nonneg p0] at hp'
          rw [abs_of_nonneg q0] at hq'
          refine ⟨p - q, by rw [hp, hq]; push_cast; rfl, abs_le.mpr ⟨by linarith, by linarith⟩⟩
        · exact hx _
    · unfold mergeAt
      rw [if_neg (by omega), if_neg (by omega)]
      exact h0 _ (by omega)

theorem neg_upTo {B : ℤ} (l : List ℕ) {f : ℕ → ℚ} (h : ∀ j, IntUpTo B (f j)) (j : ℕ) :
    IntUpTo B (l.foldl negAt f j) := by
  induction l generalizing f with
  | nil => exact h j
  | cons k l ih =>
    rw [List.foldl_cons]
    refine ih fun j => ?_
    unfold negAt
    split
    · obtain ⟨k, hk, hk'⟩ := h j
      exact ⟨-k, by rw [hk]; push_cast; ring, by rwa [abs_neg]⟩
    · exact h j

/-- A nonnegative integer vector is brought back without rounding. -/
theorem freverse_whole {m n : ℕ} {P : LP m n} (hP : WF P) {s : Fin (toSef P).n → ℚ} (hs : ∀ j, IntUpTo (2 ^ 53) (s j))
    (h0 : ∀ j, 0 ≤ s j) : freverseSol binary64 (toSef P).rev s = reverseSol (toSef P).rev s := by
  rw [freverse_rd hP fun j => (hs j).rep]
  have key : ∀ x ∈ reverseSol (toSef P).rev s, binary64.Rep x := by
    by_cases h : P.isSef
    · have hr : (toSef P).rev = none := by simp [toSef, h]
      rw [hr]
      intro x hx
      simp only [reverseSol, List.mem_ofFn] at hx
      obtain ⟨j, rfl⟩ := hx
      exact (hs j).rep
    · have hr : (toSef P).rev = some ⟨((List.finRange m).filter fun i => decide (P.ineq i ≠ .eq)).length,
          concatOf P.free 0, P.neg⟩ := by simp [toSef, h]
      rw [hr]
      intro x hx
      simp only [reverseSol, List.mem_map] at hx
      obtain ⟨j, -, rfl⟩ := hx
      rw [mergeCode_concat]
      refine (neg_upTo _ (fun j => merge_upTo _ hP.freeSorted 0 (fun _ _ => Nat.zero_le _) (fun j => ?_)
        (fun j _ => ?_) j) _).rep
      · unfold ext
        split
        · exact hs _
        · exact IntUpTo.zero (by norm_num)
      · unfold ext
        split
        · exact h0 _
        · exact le_rfl
  conv_rhs => rw [← List.map_id (reverseSol (toSef P).rev s)]
  exact List.map_congr_left key

end Floating
end Pytimize
