/-
Statements over equations: the meaning of a program as the user reads it, and proof that a program that uses
names tidily has that meaning.
-/
import Verif.Formulation.EquationProof
import Verif.Formulation.Statement

namespace Pytimize
namespace Formulation

/-! ### The meaning of a program as the user reads it -/

/-- What a name stands for: a number, a `Variable` or a linear expression. -/
inductive Kind
  | num
  | var
  | expr
  deriving DecidableEq

/-- A value as the user sees it. -/
structure Sym where
  kind : Kind
  val : Point → ℚ

/-- The value of an expression at a point, given the values of the names. -/
def NExpr.value (ρ : ℕ → Sym) (p : Point) : NExpr → ℚ
  | .num q => q
  | .x i => p (i - 1).toNat
  | .var k => p k
  | .name n => (ρ n).val p
  | .pos e => e.value ρ p
  | .neg e => -e.value ρ p
  | .add e f => e.value ρ p + f.value ρ p
  | .sub e f => e.value ρ p - f.value ρ p
  | .mul e f => e.value ρ p * f.value ρ p

/-- The expression is made of numbers only. -/
def NExpr.isNum (ρ : ℕ → Sym) : NExpr → Bool
  | .num _ => true
  | .x _ => false
  | .var _ => false
  | .name n => decide ((ρ n).kind = .num)
  | .pos e => e.isNum ρ
  | .neg e => e.isNum ρ
  | .add e f => e.isNum ρ && f.isNum ρ
  | .sub e f => e.isNum ρ && f.isNum ρ
  | .mul e f => e.isNum ρ && f.isNum ρ

/-- The kind of value an expression has. -/
def NExpr.kind (ρ : ℕ → Sym) : NExpr → Kind
  | .var _ => .var
  | .name n => (ρ n).kind
  | e => if e.isNum ρ then .num else .expr

/-- The expression `n op e`. -/
def Aug.expr : Aug → NExpr → NExpr → NExpr
  | .add => .add
  | .sub => .sub
  | .mul => .mul

/-- What the names stand for after a statement: `n op= e` is `n = n op e`. -/
def Stmt.ideal (ρ : ℕ → Sym) : Stmt → ℕ → Sym
  | .assign n e => fun m => if m = n then ⟨e.kind ρ, fun p => e.value ρ p⟩ else ρ m
  | .aug n op e => fun m =>
    if m = n then ⟨(op.expr (.name n) e).kind ρ, fun p => (op.expr (.name n) e).value ρ p⟩ else ρ m

/-- What the names stand for after a program. -/
def idealAll (ρ : ℕ → Sym) : List Stmt → ℕ → Sym
  | [] => ρ
  | c :: l => idealAll (c.ideal ρ) l

/-! ### Tidy programs -/

/-- Indices start at one, and one factor of a product is a number. -/
def NExpr.Linear (ρ : ℕ → Sym) : NExpr → Prop
  | .num _ => True
  | .x i => 1 ≤ i
  | .var _ => True
  | .name _ => True
  | .pos e => e.Linear ρ
  | .neg e => e.Linear ρ
  | .add e f => e.Linear ρ ∧ f.Linear ρ
  | .sub e f => e.Linear ρ ∧ f.Linear ρ
  | .mul e f => e.Linear ρ ∧ f.Linear ρ ∧ (e.isNum ρ ∨ f.isNum ρ)

/-- An expression is a number or has no constant term. -/
def NExpr.Bare (ρ : ℕ → Sym) (e : NExpr) : Prop := e.isNum ρ ∨ e.value ρ (fun _ => 0) = 0

/-- No expression with a constant term is negated, scaled, subtracted, or added on the right of something that is
not a number. -/
def NExpr.Plain (ρ : ℕ → Sym) : NExpr → Prop
  | .num _ => True
  | .x _ => True
  | .var _ => True
  | .name _ => True
  | .pos e => e.Plain ρ
  | .neg e => e.Plain ρ ∧ e.Bare ρ
  | .add e f => e.Plain ρ ∧ f.Plain ρ ∧ (e.isNum ρ ∨ f.Bare ρ)
  | .sub e f => e.Plain ρ ∧ f.Plain ρ ∧ f.Bare ρ
  | .mul e f => e.Plain ρ ∧ f.Plain ρ ∧ e.Bare ρ ∧ f.Bare ρ

/-- The names of linear expressions in an expression, with repetitions. -/
def NExpr.uses (ρ : ℕ → Sym) : NExpr → List ℕ
  | .num _ => []
  | .x _ => []
  | .var _ => []
  | .name n => if (ρ n).kind = .expr then [n] else []
  | .pos e => e.uses ρ
  | .neg e => e.uses ρ
  | .add e f => e.uses ρ ++ f.uses ρ
  | .sub e f => e.uses ρ ++ f.uses ρ
  | .mul e f => e.uses ρ ++ f.uses ρ

/-- An expression that may be bound to the name `n`: the only linear expression it mentions by name, if any, is
the one `n` stands for, once. -/
structure NExpr.Tidy (ρ : ℕ → Sym) (n : ℕ) (e : NExpr) : Prop where
  linear : e.Linear ρ
  plain : e.Plain ρ
  uses : e.uses ρ = [] ∨ e.uses ρ = [n]

/-- A statement that is tidy: the expression bound to the name is, or it is `n += m` for a name `m` whose
expression has no constant term (or is a number), and `n` does not stand for a number. -/
def Stmt.Tidy (ρ : ℕ → Sym) : Stmt → Prop
  | .assign n e => e.Tidy ρ n
  | .aug n op e => (op.expr (.name n) e).Tidy ρ n ∨
    op = .add ∧ (ρ n).kind ≠ .num ∧ ∃ m, e = .name m ∧ (NExpr.name m).Bare ρ

/-- Every statement is tidy when its turn comes. -/
def TidyAll (ρ : ℕ → Sym) : List Stmt → Prop
  | [] => True
  | c :: l => c.Tidy ρ ∧ TidyAll (c.ideal ρ) l

/-- The kind of a Python value. -/
def Val.kind : Val → Kind
  | .num _ => .num
  | .var _ => .var
  | .eqn _ => .expr
  | .none => .expr

/-- The names stand for what they are meant to: same kinds and values, and no two names share an object. -/
structure Means (s : Frame) (ρ : ℕ → Sym) : Prop where
  good : Good s.heap
  ok : ∀ n, (s.env n).Ok s.heap
  kind : ∀ n, (s.env n).kind = (ρ n).kind
  val : ∀ n p, (s.env n).at s.heap p = (ρ n).val p
  inj : ∀ m n a, s.env m = .eqn a → s.env n = .eqn a → m = n

/-! ### From names to addresses -/

/-- The expression with every name replaced by what it is bound to. -/
def NExpr.subst (env : ℕ → Val) : NExpr → Expr
  | .num q => .num q
  | .x i => .x i
  | .var k => .var k
  | .name n => match env n with
    | .num q => .num q
    | .var k => .var k
    | .eqn a => .ref a
    | .none => .num 0
  | .pos e => .pos (e.subst env)
  | .neg e => .neg (e.subst env)
  | .add e f => .add (e.subst env) (f.subst env)
  | .sub e f => .sub (e.subst env) (f.subst env)
  | .mul e f => .mul (e.subst env) (f.subst env)

theorem evalN_eq {env : ℕ → Val} (hn : ∀ n, env n ≠ .none) (h : Heap) (e : NExpr) :
    evalN env h e = eval h (e.subst env) := by
  induction e generalizing h with
  | num q => rfl
  | x i => rfl
  | var k => rfl
  | name n =>
    have := hn n
    simp only [evalN, NExpr.subst]
    cases hv : env n <;> simp_all [eval]
  | pos e ih | neg e ih => simp only [evalN, NExpr.subst, eval, ih]; rfl
  | add e f ih1 ih2 | sub e f ih1 ih2 | mul e f ih1 ih2 =>
    simp only [evalN, NExpr.subst, eval, ih1]
    generalize eval h (e.subst env) = r
    rcases r with r | ⟨h1, v⟩
    · rfl
    · simp only [ih2]; rfl

section
variable {s : Frame} {ρ : ℕ → Sym} (hm : Means s ρ)
include hm

theorem Means.not_none (n : ℕ) : s.env n ≠ .none := by
  intro h; have := hm.ok n; rw [h] at this; exact this

theorem Means.subst_at (e : NExpr) (p : Point) : (e.subst s.env).at s.heap p = e.value ρ p := by
  induction e with
  | num q => rfl
  | x i => rfl
  | var k => rfl
  | name n =>
    have h1 := hm.val n p
    have h2 := hm.not_none n
    simp only [NExpr.subst, NExpr.value]
    rw [← h1]
    cases hv : s.env n <;> simp_all [Expr.at, Val.at]
  | pos e ih => exact ih
  | neg e ih => simp only [NExpr.subst, NExpr.value, Expr.at, ih]
  | add e f ih1 ih2 | sub e f ih1 ih2 | mul e f ih1 ih2 =>
    simp only [NExpr.subst, NExpr.value, Expr.at, ih1, ih2]

theorem Means.subst_isNum (e : NExpr) : (e.subst s.env).isNum = e.isNum ρ := by
  induction e with
  | num q => rfl
  | x i => rfl
  | var k => rfl
  | name n =>
    have h1 := hm.kind n
    have h2 := hm.not_none n
    simp only [NExpr.subst, NExpr.isNum]
    cases hv : s.env n <;> simp_all [Expr.isNum, Val.kind] <;> rw [← h1] <;> simp
  | pos e ih => exact ih
  | neg e ih => exact ih
  | add e f ih1 ih2 | sub e f ih1 ih2 | mul e f ih1 ih2 =>
    simp only [NExpr.subst, NExpr.isNum, Expr.isNum, ih1, ih2]

theorem Means.subst_linear {e : NExpr} (he : e.Linear ρ) : (e.subst s.env).Linear := by
  induction e with
  | num q => trivial
  | x i => exact he
  | var k => trivial
  | name n =>
    simp only [NExpr.subst]
    cases s.env n <;> trivial
  | pos e ih => exact ih he
  | neg e ih => exact ih he
  | add e f ih1 ih2 | sub e f ih1 ih2 => exact ⟨ih1 he.1, ih2 he.2⟩
  | mul e f ih1 ih2 =>
    refine ⟨ih1 he.1, ih2 he.2.1, ?_⟩
    rw [hm.subst_isNum, hm.subst_isNum]
    exact he.2.2

theorem Means.subst_plain {e : NExpr} (he : e.Plain ρ) : (e.subst s.env).Plain s.heap := by
  induction e with
  | num q => trivial
  | x i => trivial
  | var k => trivial
  | name n =>
    simp only [NExpr.subst]
    cases s.env n <;> trivial
  | pos e ih => exact ih he
  | neg e ih =>
    refine ⟨ih he.1, ?_⟩
    rw [hm.subst_isNum, hm.subst_at]; exact he.2
  | add e f ih1 ih2 | sub e f ih1 ih2 | mul e f ih1 ih2 =>
    refine ⟨ih1 he.1, ih2 he.2.1, ?_⟩
    simp only [hm.subst_isNum, hm.subst_at]; exact he.2.2

/-- The objects an expression mentions are those of the names it uses. -/
theorem Means.subst_refs (e : NExpr) : (e.subst s.env).refs.map Val.eqn = (e.uses ρ).map s.env := by
  induction e with
  | num q => rfl
  | x i => rfl
  | var k => rfl
  | name n =>
    have h1 := hm.kind n
    have h2 := hm.not_none n
    simp only [NExpr.subst, NExpr.uses]
    rw [← h1]
    cases hv : s.env n with
    | none => exact (h2 hv).elim
    | eqn a => simp [Expr.refs, Val.kind, hv]
    | _ => simp [Expr.refs, Val.kind]
  | pos e ih => exact ih
  | neg e ih => exact ih
  | add e f ih1 ih2 | sub e f ih1 ih2 | mul e f ih1 ih2 =>
    simp only [NExpr.subst, NExpr.uses, Expr.refs, List.map_append, ih1, ih2]

theorem Means.mem_refs {e : NExpr} {n a : ℕ} (hu : e.uses ρ = [] ∨ e.uses ρ = [n])
    (ha : a ∈ (e.subst s.env).refs) : s.env n = .eqn a := by
  have h := hm.subst_refs e
  have h1 : Val.eqn a ∈ (e.uses ρ).map s.env := by rw [← h]; exact List.mem_map_of_mem ha
  rcases hu with hu | hu <;> rw [hu] at h1 <;> simp at h1
  exact h1.symm

theorem Means.nodup_refs {e : NExpr} {n : ℕ} (hu : e.uses ρ = [] ∨ e.uses ρ = [n]) :
    (e.subst s.env).refs.Nodup := by
  have h := congrArg List.length (hm.subst_refs e)
  simp only [List.length_map] at h
  have h1 : (e.subst s.env).refs.length ≤ 1 := by
    rw [h]; rcases hu with hu | hu <;> simp [hu]
  match hr : (e.subst s.env).refs with
  | [] => exact List.nodup_nil
  | [a] => exact List.nodup_singleton a
  | _ :: _ :: _ => rw [hr] at h1; simp at h1

theorem Means.subst_var {e : NExpr} {k : ℕ} (he : e.subst s.env = .var k) : e.kind ρ = .var := by
  cases e with
  | var j => rfl
  | name n =>
    have h1 := hm.kind n
    simp only [NExpr.subst] at he
    simp only [NExpr.kind]
    rw [← h1]
    cases hv : s.env n <;> simp_all [Val.kind]
  | _ => simp [NExpr.subst] at he

/-- The names after binding `n` to a value made from the object of `n` or a new one. -/
theorem Means.bind {n : ℕ} {h' : Heap} {w : Val} {used : ℕ → Prop} {k : Kind} {f : Point → ℚ}
    (hs : Step s.heap used h' w) (hu : ∀ a, used a → s.env n = .eqn a)
    (hk : w.kind = k) (hv : ∀ p, w.at h' p = f p) :
    Means ⟨h', Formulation.bind s.env n w⟩ (fun m => if m = n then ⟨k, f⟩ else ρ m) := by
  have hfr : ∀ m, m ≠ n → ∀ a, s.env m = .eqn a → deref h' a = deref s.heap a := by
    intro m hmn a ha
    have hok := hm.ok m
    rw [ha] at hok
    exact hs.frame a hok fun hua => hmn (hm.inj m n a ha (hu a hua))
  have hnew : ∀ m, m ≠ n → ∀ a, s.env m = .eqn a → w ≠ .eqn a := by
    intro m hmn a ha hw
    have hok : a < s.heap.length := by have := hm.ok m; rwa [ha] at this
    rcases hs.own a hw with h | h
    · exact hmn (hm.inj m n a ha (hu a h))
    · omega
  refine ⟨hs.good, fun m => ?_, fun m => ?_, fun m p => ?_, fun m l a h1 h2 => ?_⟩
  · by_cases hmn : m = n
    · simp only [Formulation.bind, hmn, if_true]; exact hs.ok
    · simp only [Formulation.bind, hmn, if_false]; exact (hm.ok m).mono hs.le
  · by_cases hmn : m = n
    · simp only [Formulation.bind, hmn, if_true]; exact hk
    · simp only [Formulation.bind, hmn, if_false]; exact hm.kind m
  · by_cases hmn : m = n
    · simp only [Formulation.bind, hmn, if_true]; exact hv p
    · simp only [Formulation.bind, hmn, if_false]
      rw [Val.at_frame fun a ha => hfr m hmn a ha]
      exact hm.val m p
  · by_cases hmn : m = n <;> by_cases hln : l = n
    · rw [hmn, hln]
    · simp only [Formulation.bind, hmn, if_true, hln, if_false] at h1 h2
      exact (hnew l hln a h2 h1).elim
    · simp only [Formulation.bind, hmn, if_false, hln, if_true] at h1 h2
      exact (hnew m hmn a h1 h2).elim
    · simp only [Formulation.bind, hmn, if_false, hln] at h1 h2
      exact hm.inj m l a h1 h2

theorem Means.assign {n : ℕ} {e : NExpr} (ht : e.Tidy ρ n) :
    ∃ h' w, evalN s.env s.heap e = .ok (h', w) ∧
      Means ⟨h', Formulation.bind s.env n w⟩ ((Stmt.assign n e).ideal ρ) := by
  obtain ⟨h', w, hs⟩ := eval_spec hm.good (hm.subst_linear ht.linear) (hm.nodup_refs ht.uses) (by
    intro a ha
    have := hm.ok n
    rwa [hm.mem_refs ht.uses ha] at this)
  refine ⟨h', w, by rw [evalN_eq hm.not_none]; exact hs.run, ?_⟩
  refine hm.bind hs.step (fun a ha => hm.mem_refs ht.uses ha) ?_ fun p => ?_
  · have h1 := hs.num
    rw [hm.subst_isNum] at h1
    cases w with
    | none => exact hs.step.ok.elim
    | var k => rw [hm.subst_var (eval_var hs.run)]; rfl
    | num q =>
      have h2 : e.isNum ρ = true := h1.mp ⟨q, rfl⟩
      cases e <;> simp_all [NExpr.kind, NExpr.isNum, Val.kind]
    | eqn a =>
      have h2 : e.isNum ρ ≠ true := fun h => by
        obtain ⟨q, hq⟩ := h1.mpr h; cases hq
      have h3 : ∀ k, e.subst s.env ≠ .var k := by
        intro k hk
        have := hs.run
        rw [hk] at this
        simp [eval] at this
      cases e with
      | var k => exact (h3 k rfl).elim
      | name m =>
        have h4 := hm.kind m
        have h5 := hm.not_none m
        simp only [NExpr.kind, ← h4]
        simp only [NExpr.subst] at h3
        simp only [NExpr.isNum, ← h4] at h2
        cases hv : s.env m <;> simp_all [Val.kind]
      | num q => simp [NExpr.isNum] at h2
      | _ => simp only [NExpr.kind, if_neg h2, Val.kind]
  · have h1 := hs.lin p
    have h2 := hs.cst (hm.subst_plain ht.plain)
    rw [hm.subst_at, hm.subst_at] at h1
    rw [hm.subst_at] at h2
    unfold Val.lin at h1
    unfold Val.cst at h2
    linarith

end

/-- `v op= w` does what `v op w` does. -/
theorem augAssign_eq (h : Heap) (op : Aug) (v w : Val) :
    augAssign h op v w = match op with
      | .add => opAdd h v w
      | .sub => opSub h v w
      | .mul => opMul h v w := by
  cases op <;> cases v <;> rfl

/-- `n op= e` does what `n = n op e` does. -/
theorem exec_aug (s : Frame) (n : ℕ) (op : Aug) (e : NExpr) :
    exec s (.aug n op e) = exec s (.assign n (op.expr (.name n) e)) := by
  cases op <;> simp only [exec, Aug.expr, evalN] <;>
    (generalize evalN s.env s.heap e = r; rcases r with r | ⟨h, w⟩
     · rfl
     · simp only [augAssign_eq])

theorem Means.exec {s : Frame} {ρ : ℕ → Sym} (hm : Means s ρ) {c : Stmt} (hc : c.Tidy ρ) :
    ∃ s', Formulation.exec s c = .ok s' ∧ Means s' (c.ideal ρ) := by
  have key : ∀ n e, e.Tidy ρ n → ∃ s', Formulation.exec s (.assign n e) = .ok s' ∧
      Means s' ((Stmt.assign n e).ideal ρ) := by
    intro n e he
    obtain ⟨h', w, h1, h2⟩ := hm.assign he
    exact ⟨_, by simp only [Formulation.exec, h1], h2⟩
  cases c with
  | assign n e => exact key n e hc
  | aug n op e =>
    rcases hc with hc | ⟨rfl, hn, m, rfl, hb⟩
    · rw [exec_aug]; exact key n _ hc
    · have hb' : (s.env m).IsNum ∨ (s.env m).cst s.heap = 0 := by
        rcases hb with hb | hb
        · left
          simp only [NExpr.isNum, decide_eq_true_eq] at hb
          have h1 := hm.kind m
          have h2 := hm.not_none m
          cases hv : s.env m <;> simp_all [Val.kind, Val.IsNum]
          all_goals rw [← h1] at hb; cases hb
        · right
          exact (hm.val m _).trans hb
      have hkind : ((NExpr.name n).add (.name m)).kind ρ = .expr := by
        simp [NExpr.kind, NExpr.isNum, hn]
      have hfin : ∀ {h' : Heap} {u : Val}, augAssign s.heap .add (s.env n) (s.env m) = .ok (h', u) → u.kind = .expr →
          ∀ {used : ℕ → Prop}, Step s.heap used h' u → (∀ a, used a → s.env n = .eqn a) →
          (∀ p, u.lin h' p = (s.env n).lin s.heap p + (s.env m).lin s.heap p) →
          u.cst h' = (s.env n).cst s.heap + (s.env m).cst s.heap →
          ∃ s', Formulation.exec s (.aug n .add (.name m)) = .ok s' ∧
            Means s' ((Stmt.aug n .add (.name m)).ideal ρ) := by
        intro h' u h1 hk used hs hu hl hc
        refine ⟨⟨h', Formulation.bind s.env n u⟩, by simp only [Formulation.exec, evalN, h1], ?_⟩
        refine hm.bind hs hu (hk.trans hkind.symm) fun p => ?_
        have := hl p
        simp only [Aug.expr, NExpr.value]
        rw [← hm.val n, ← hm.val m]
        unfold Val.lin at this
        unfold Val.cst at hc
        linarith
      cases hv : s.env n with
      | num q =>
        have := hm.kind n
        rw [hv] at this
        exact (hn this.symm).elim
      | none => exact (hm.not_none n hv).elim
      | eqn a =>
        have hok := hm.ok n
        rw [hv] at hok
        obtain ⟨h', h1, h2, _, h4, h5⟩ := addEqn_spec hm.good hok (hm.ok m)
        refine hfin (by rw [hv]; exact congrArg Except.ok h1) rfl h2 (fun b hb => by rw [hv, hb]) ?_ ?_
        · rw [hv]; exact h4
        · rw [hv]; exact h5 hb'
      | var k =>
        obtain ⟨h', h1, h2, h4, h5⟩ := addVar_spec hm.good k (hm.ok m)
        refine hfin (by rw [hv]; exact congrArg Except.ok h1) rfl h2 (fun b hb => hb.elim) ?_ ?_
        · rw [hv]; intro p; rw [h4, lin_var]
        · rw [hv, cst_var, h5 hb', zero_add]

/-- A tidy program runs without an exception and leaves every name with the value the user expects. -/
theorem Means.execAll {l : List Stmt} {s : Frame} {ρ : ℕ → Sym} (hm : Means s ρ) (hl : TidyAll ρ l) :
    ∃ s', Formulation.execAll s l = .ok s' ∧ Means s' (idealAll ρ l) := by
  induction l generalizing s ρ with
  | nil => exact ⟨s, rfl, hm⟩
  | cons c l ih =>
    obtain ⟨s1, h1, hm1⟩ := hm.exec hl.1
    obtain ⟨s2, h2, hm2⟩ := ih hm1 hl.2
    exact ⟨s2, by simp only [Formulation.execAll, h1]; exact h2, hm2⟩

end Formulation
end Pytimize
