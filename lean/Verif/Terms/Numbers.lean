import Verif.Terms.SynEq

/-!
# Arithmetic on number terms

Model of `_NumberTerm` (`ops/syntax.py` 1006-1338) and property C30.
-/

namespace Verif.Terms

open Verif.Scoped (Sig Err TyVar)

/-- The comparisons. -/
inductive Cmp : Type where
  | lt | gt | le | ge
  deriving DecidableEq

/-- The reflected comparison. -/
def Cmp.flip : Cmp → Cmp
  | .lt => .gt
  | .gt => .lt
  | .le => .ge
  | .ge => .le

/-- The operations of `_NumberTerm`: unary ones (`__neg__`, `__abs__`, …), binary ones (`__add__`,
`__sub__`, …) and comparisons. -/
inductive Code : Type where
  | un (u : Nat)
  | bin (b : Nat)
  | cmp (c : Cmp)
  deriving DecidableEq

/-- Python arithmetic on plain numbers. `un` and `bin` are the operators (`-a`, `a + b`). `cmp c a b`
is the method call `a.__lt__(b)`, which gives none for `NotImplemented`. -/
structure Arith where
  un : Nat → Nat → Except Err Nat
  bin : Nat → Nat → Nat → Except Err Nat
  cmp : Cmp → Nat → Nat → Option Nat
  /-- the object `NotImplemented` -/
  notImpl : Nat
  /-- the operation objects -/
  op : Code → Op
  code : Op → Option Code

/-- The operator `a < b` etc. on plain numbers: the method of the left operand, then the reflected
method of the right one. -/
def Arith.pyCmp (A : Arith) (c : Cmp) (a b : Nat) : Except Err Nat :=
  match A.cmp c a b with
  | some r => .ok r
  | none =>
    match A.cmp c.flip b a with
    | some r => .ok r
    | none => .error .type

def valE (n : Nat) : Expr := .atom (.val n)

variable (A : Arith) (G : Sigs)

/-- The default rules (`ops/syntax.py` 1061-1338): compute if no operand is a term, otherwise
NotHandled, that is, `defdata`. Comparisons call the method, not the operator
(`ops/syntax.py` 1132-1158). -/
def arithDefault (c : Code) (ys : List Expr) (n : Nat) : Except Err Expr × Nat :=
  match c, ys with
  | .un u, [.atom (.val a)] => ((A.un u a).map valE, n)
  | .bin f, [.atom (.val a), .atom (.val b)] => ((A.bin f a b).map valE, n)
  | .cmp c, [.atom (.val a), .atom (.val b)] => (.ok (valE ((A.cmp c a b).getD A.notImpl)), n)
  | c, ys => callDefdata G id (fun n _ => n) (A.op c) (ys.map (fun _ => .pos)) ys n

/-- Calls under handlers that map the variables in `τ` to numbers. -/
def numCtx (τ : Op → Option Nat) : Ctx Nat where
  callOp o sl ys n :=
    match A.code o with
    | some c => arithDefault A G c ys n
    | none =>
      match τ o with
      | some v => if ys = [] then (.ok (valE v), n) else (.error .type, n)
      | none => callDefdata G id (fun n _ => n) o sl ys n
  opVal := id

/-- Arithmetic expressions of a program. -/
inductive AExp : Type where
  | num (v : Nat)
  | var (o : Op)
  | un (u : Nat) (a : AExp)
  | bin (f : Nat) (a b : AExp)
  | cmp (c : Cmp) (a b : AExp)

/-- Python evaluates `u(x)`: on a number directly, on a term by the method, which is an operation. -/
def pyUn (τ : Op → Option Nat) (u : Nat) (x : Expr) (n : Nat) : Except Err Expr × Nat :=
  match x with
  | .atom (.val a) => ((A.un u a).map valE, n)
  | x => (numCtx A G τ).callOp (A.op (.un u)) [.pos] [x] n

/-- Python evaluates `x + y`: on numbers directly; if `x` is a term, by `x.__add__(y)`; if only `y` is
a term, `int.__add__` gives NotImplemented and Python calls `y.__radd__(x)`, which calls the
operation `__add__` with `(x, y)` (`ops/syntax.py` 1167-1173 etc.). -/
def pyBin (τ : Op → Option Nat) (f : Nat) (x y : Expr) (n : Nat) : Except Err Expr × Nat :=
  match x, y with
  | .atom (.val a), .atom (.val b) => ((A.bin f a b).map valE, n)
  | x, y => (numCtx A G τ).callOp (A.op (.bin f)) [.pos, .pos] [x, y] n

/-- Python evaluates `x < y`: if only `y` is a term, it calls the reflected method `y.__gt__(x)`. -/
def pyLt (τ : Op → Option Nat) (c : Cmp) (x y : Expr) (n : Nat) : Except Err Expr × Nat :=
  match x, y with
  | .atom (.val a), .atom (.val b) => ((A.pyCmp c a b).map valE, n)
  | .atom (.val a), y => (numCtx A G τ).callOp (A.op (.cmp c.flip)) [.pos, .pos] [y, valE a] n
  | x, y => (numCtx A G τ).callOp (A.op (.cmp c)) [.pos, .pos] [x, y] n

/-- Python evaluates an expression with the handlers `τ` installed: operands from left to right. -/
def runA (τ : Op → Option Nat) : AExp → Nat → Except Err Expr × Nat
  | .num v, n => (.ok (valE v), n)
  | .var o, n => (numCtx A G τ).callOp o [] [] n
  | .un u a, n =>
    match runA τ a n with
    | (.error e, n) => (.error e, n)
    | (.ok x, n) => pyUn A G τ u x n
  | .bin f a b, n =>
    match runA τ a n with
    | (.error e, n) => (.error e, n)
    | (.ok x, n) =>
      match runA τ b n with
      | (.error e, n) => (.error e, n)
      | (.ok y, n) => pyBin A G τ f x y n
  | .cmp c a b, n =>
    match runA τ a n with
    | (.error e, n) => (.error e, n)
    | (.ok x, n) =>
      match runA τ b n with
      | (.error e, n) => (.error e, n)
      | (.ok y, n) => pyLt A G τ c x y n

/-! ## Specification -/

/-- The expression computed directly on numbers. -/
def direct (A : Arith) (ρ : Op → Nat) : AExp → Except Err Nat
  | .num v => .ok v
  | .var o => .ok (ρ o)
  | .un u a => do A.un u (← direct A ρ a)
  | .bin f a b => do
    let x ← direct A ρ a
    let y ← direct A ρ b
    A.bin f x y
  | .cmp c a b => do
    let x ← direct A ρ a
    let y ← direct A ρ b
    A.pyCmp c x y

/-- The variables of an expression are no arithmetic operations and have no parameters. -/
def AExp.Vars (A : Arith) (G : Sigs) : AExp → Prop
  | .num _ => True
  | .var o => A.code o = none ∧ G.bounds o [] [] = .ok []
  | .un _ a => a.Vars A G
  | .bin _ a b => a.Vars A G ∧ b.Vars A G
  | .cmp _ a b => a.Vars A G ∧ b.Vars A G

/-- There are no comparisons. -/
def AExp.NoCmp : AExp → Prop
  | .num _ => True
  | .var _ => True
  | .un _ a => a.NoCmp
  | .bin _ a b => a.NoCmp ∧ b.NoCmp
  | .cmp _ _ _ => False

/-- The comparison methods are implemented for all pairs of numbers, and the reflected method gives
the same result. This holds for numbers of one type. -/
def Arith.Uniform (A : Arith) : Prop :=
  ∀ c a b, ∃ r, A.cmp c a b = some r ∧ A.cmp c.flip b a = some r

/-- The arithmetic operations are distinct, and they do not bind anything. -/
structure Arith.Good (A : Arith) (G : Sigs) : Prop where
  code : ∀ c, A.code (A.op c) = some c
  un : ∀ u x, G.bounds (A.op (.un u)) [.pos] [x] = .ok [[]]
  bin : ∀ f x y, G.bounds (A.op (.bin f)) [.pos, .pos] [x, y] = .ok [[], []]
  cmp : ∀ c x y, G.bounds (A.op (.cmp c)) [.pos, .pos] [x, y] = .ok [[], []]

/-! ## Lemmas -/

/-- The terms that occur. -/
inductive NumTm (A : Arith) : Expr → Prop where
  | val (n) : NumTm A (valE n)
  | var {o} : A.code o = none → NumTm A (.node (.term o []) [])
  | un {u x} : NumTm A x → NumTm A (.node (.term (A.op (.un u)) [.pos]) [x])
  | bin {f x y} : NumTm A x → NumTm A y →
      NumTm A (.node (.term (A.op (.bin f)) [.pos, .pos]) [x, y])
  | cmp {c x y} : NumTm A x → NumTm A y →
      NumTm A (.node (.term (A.op (.cmp c)) [.pos, .pos]) [x, y])

variable {A G}

theorem ren_nil (o : Op) : ren [] o = o := rfl

theorem NumTm.ren {t : Expr} (h : NumTm A t) (n : Nat) : evaluate (renCtx []) t n = (.ok t, n) := by
  induction h generalizing n with
  | val v => rfl
  | var _ => rfl
  | un _ ih => simp only [evaluate, evaluates, ih]; rfl
  | bin _ _ ih1 ih2 => simp only [evaluate, evaluates, ih1, ih2]; rfl
  | cmp _ _ ih1 ih2 => simp only [evaluate, evaluates, ih1, ih2]; rfl

/-- Building a term of an operation that binds nothing. -/
theorem callDefdata_num {o : Op} {sl : List Slot} {xs : List Expr} {Bs : List (List Op)}
    (hb : G.bounds o sl xs = .ok Bs) (he : ∀ B ∈ Bs, B = []) (hl : Bs.length = xs.length)
    (hx : ∀ x ∈ xs, NumTm A x) (n : Nat) :
    callDefdata G id (fun n _ => n) o sl xs n = (.ok (.node (.term o sl) xs), n) := by
  have hf : Bs.flatten = [] := by
    rw [List.flatten_eq_nil_iff]
    exact he
  have hr : ∀ (Bs : List (List Op)) (xs : List Expr), Bs.length = xs.length →
      (∀ x ∈ xs, NumTm A x) → renameArgs [] xs Bs n = .ok xs := by
    intro Bs xs hl hx
    induction xs generalizing Bs with
    | nil => cases Bs <;> rfl
    | cons x xs ih =>
      cases Bs with
      | nil => simp at hl
      | cons B Bs =>
        rw [renameArgs, List.filter_nil, (hx x List.mem_cons_self).ren,
          ih Bs (by simpa using hl) (fun y hy => hx y (List.mem_cons_of_mem _ hy))]
  simp only [callDefdata, defdata, id, hb, hf, freshen, hr Bs xs hl hx]

theorem NumTm.cases_val {t : Expr} (h : NumTm A t) : (∃ v, t = valE v) ∨ ∃ o sl xs, t = .node (.term o sl) xs := by
  cases h with
  | val v => exact .inl ⟨v, rfl⟩
  | var _ => exact .inr ⟨_, _, _, rfl⟩
  | un _ => exact .inr ⟨_, _, _, rfl⟩
  | bin _ _ => exact .inr ⟨_, _, _, rfl⟩
  | cmp _ _ => exact .inr ⟨_, _, _, rfl⟩

/-- C30: a unary operation computes at once on a number, and otherwise is a term of the operation. -/
theorem C30_immediate_unary (hA : A.Good G) (τ : Op → Option Nat) (u : Nat) (x : Expr) (n : Nat)
    (hx : NumTm A x) :
    (∀ a, x = valE a → pyUn A G τ u x n = ((A.un u a).map valE, n)) ∧
    ((∀ a, x ≠ valE a) → pyUn A G τ u x n = (.ok (.node (.term (A.op (.un u)) [.pos]) [x]), n)) := by
  refine ⟨fun a e => by subst e; rfl, fun h => ?_⟩
  rcases hx.cases_val with ⟨v, e⟩ | ⟨o, sl, xs, rfl⟩
  · exact absurd e (h v)
  · simp only [pyUn, numCtx, hA.code, arithDefault]
    exact callDefdata_num (hA.un u _) (by simp) rfl (by simpa using hx) n

/-- C30: a binary operation computes at once on two numbers, and otherwise is a term of the operation
with these operands in this order. -/
theorem C30_immediate_binary (hA : A.Good G) (τ : Op → Option Nat) (f : Nat) (x y : Expr) (n : Nat)
    (hx : NumTm A x) (hy : NumTm A y) :
    (∀ a b, x = valE a → y = valE b → pyBin A G τ f x y n = ((A.bin f a b).map valE, n)) ∧
    ((∀ a, x ≠ valE a) ∨ (∀ b, y ≠ valE b) →
      pyBin A G τ f x y n = (.ok (.node (.term (A.op (.bin f)) [.pos, .pos]) [x, y]), n)) := by
  refine ⟨fun a b e e' => by subst e; subst e'; rfl, fun h => ?_⟩
  have key := callDefdata_num (A := A) (hA.bin f x y) (by simp) rfl (by simp [hx, hy]) n
  rcases hx.cases_val with ⟨v, rfl⟩ | ⟨o, sl, xs, rfl⟩
  · rcases hy.cases_val with ⟨w, rfl⟩ | ⟨o, sl, xs, rfl⟩
    · rcases h with h | h <;> exact absurd rfl (h _)
    · simp only [valE, pyBin, numCtx, hA.code, arithDefault]
      exact key
  · simp only [pyBin, numCtx, hA.code, arithDefault]
    exact key

theorem pyLt_term (hA : A.Good G) (τ : Op → Option Nat) (c : Cmp) (x y : Expr) (n : Nat)
    (hx : NumTm A x) (hy : NumTm A y) :
    (∀ a b, x = valE a → y = valE b → pyLt A G τ c x y n = ((A.pyCmp c a b).map valE, n)) ∧
    ((∀ a, x ≠ valE a) →
      pyLt A G τ c x y n = (.ok (.node (.term (A.op (.cmp c)) [.pos, .pos]) [x, y]), n)) ∧
    (∀ a, x = valE a → (∀ b, y ≠ valE b) →
      pyLt A G τ c x y n = (.ok (.node (.term (A.op (.cmp c.flip)) [.pos, .pos]) [y, x]), n)) := by
  refine ⟨fun a b e e' => by subst e; subst e'; rfl, fun h => ?_, ?_⟩
  · rcases hx.cases_val with ⟨v, rfl⟩ | ⟨o, sl, xs, rfl⟩
    · exact absurd rfl (h v)
    · simp only [pyLt, numCtx, hA.code, arithDefault]
      exact callDefdata_num (A := A) (hA.cmp c _ _) (by simp) rfl (by simp [hx, hy]) n
  · rintro a rfl h
    rcases hy.cases_val with ⟨w, rfl⟩ | ⟨o, sl, xs, rfl⟩
    · exact absurd rfl (h w)
    · simp only [valE, pyLt, numCtx, hA.code, arithDefault]
      exact callDefdata_num (A := A) (hA.cmp c.flip _ _) (by simp) rfl (by simpa [valE] using ⟨hy, hx⟩) n

theorem valE_ne {o : Op} {sl : List Slot} {xs : List Expr} (a : Nat) :
    Expr.node (.term o sl) xs ≠ valE a := by
  intro h; cases h

/-- Evaluating a term of an arithmetic operation. -/
theorem eval_un (hA : A.Good G) {τ : Op → Option Nat} {u : Nat} {x : Expr} {m : Nat} {r : Expr}
    (h : evaluate (numCtx A G τ) x m = (.ok r, m)) (hr : NumTm A r) :
    evaluate (numCtx A G τ) (.node (.term (A.op (.un u)) [.pos]) [x]) m = pyUn A G τ u r m := by
  simp only [evaluate, evaluates, h]
  rcases hr.cases_val with ⟨v, rfl⟩ | ⟨o, sl, xs, rfl⟩
  · simp only [numCtx, hA.code, arithDefault, valE, pyUn]
  · simp only [pyUn]

theorem eval_bin (hA : A.Good G) {τ : Op → Option Nat} {f : Nat} {x y : Expr} {m : Nat} {r s : Expr}
    (h : evaluate (numCtx A G τ) x m = (.ok r, m)) (hr : NumTm A r)
    (h' : evaluate (numCtx A G τ) y m = (.ok s, m)) (hs : NumTm A s) :
    evaluate (numCtx A G τ) (.node (.term (A.op (.bin f)) [.pos, .pos]) [x, y]) m =
      pyBin A G τ f r s m := by
  simp only [evaluate, evaluates, h, h']
  rcases hr.cases_val with ⟨v, rfl⟩ | ⟨o, sl, xs, rfl⟩
  · rcases hs.cases_val with ⟨w, rfl⟩ | ⟨o, sl, xs, rfl⟩
    · simp only [numCtx, hA.code, arithDefault, valE, pyBin]
    · simp only [valE, pyBin]
  · simp only [pyBin]

/-- Evaluation gives errors and values as computed by `f`, whatever the counter. -/
def Gives (τ : Op → Option Nat) (t : Expr) (r : Except Err Nat) : Prop :=
  ∀ m, evaluate (numCtx A G τ) t m = (r.map valE, m)

theorem gives_val (τ : Op → Option Nat) (v : Nat) : Gives (A := A) (G := G) τ (valE v) (.ok v) :=
  fun _ => rfl

theorem gives_un (hA : A.Good G) {τ : Op → Option Nat} {u : Nat} {x : Expr} {r : Except Err Nat}
    (h : Gives (A := A) (G := G) τ x r) :
    Gives (A := A) (G := G) τ (.node (.term (A.op (.un u)) [.pos]) [x]) (r.bind (A.un u)) := by
  intro m
  cases r with
  | error e => simp only [evaluate, evaluates, h m]; rfl
  | ok v =>
    simp only [evaluate, evaluates, h m, Except.map]
    simp only [Except.bind, numCtx, hA.code, arithDefault, valE, Except.map]

theorem gives_bin (hA : A.Good G) {τ : Op → Option Nat} {f : Nat} {x y : Expr}
    {r s : Except Err Nat} (h : Gives (A := A) (G := G) τ x r) (h' : Gives (A := A) (G := G) τ y s) :
    Gives (A := A) (G := G) τ (.node (.term (A.op (.bin f)) [.pos, .pos]) [x, y])
      (r.bind (fun a => s.bind (A.bin f a))) := by
  intro m
  cases r with
  | error e => simp only [evaluate, evaluates, h m]; rfl
  | ok v =>
    cases s with
    | error e => simp only [evaluate, evaluates, h m, Except.map, h' m]; rfl
    | ok w =>
      simp only [evaluate, evaluates, h m, h' m, Except.map]
      simp only [Except.bind, numCtx, hA.code, arithDefault, valE, Except.map]

theorem gives_cmp (hA : A.Good G) (hu : A.Uniform) {τ : Op → Option Nat} {c : Cmp} {x y : Expr}
    {r s : Except Err Nat} (h : Gives (A := A) (G := G) τ x r) (h' : Gives (A := A) (G := G) τ y s) :
    Gives (A := A) (G := G) τ (.node (.term (A.op (.cmp c)) [.pos, .pos]) [x, y])
      (r.bind (fun a => s.bind (A.pyCmp c a))) := by
  intro m
  cases r with
  | error e => simp only [evaluate, evaluates, h m]; rfl
  | ok v =>
    cases s with
    | error e => simp only [evaluate, evaluates, h m, Except.map, h' m]; rfl
    | ok w =>
      obtain ⟨q, hq, _⟩ := hu c v w
      simp only [evaluate, evaluates, h m, h' m, Except.map]
      simp only [Except.bind, numCtx, hA.code, arithDefault, valE, Except.map, Arith.pyCmp, hq,
        Option.getD_some]

theorem Cmp.flip_flip (c : Cmp) : c.flip.flip = c := by cases c <;> rfl

theorem pyCmp_flip (hu : A.Uniform) (c : Cmp) (a b : Nat) : A.pyCmp c.flip b a = A.pyCmp c a b := by
  obtain ⟨q, h1, h2⟩ := hu c a b
  simp only [Arith.pyCmp, h1, h2]

/-- The main induction: what Python builds under `σ` evaluates under the full assignment to the
direct result; if Python raises under `σ`, the direct computation raises. -/
theorem run_direct (hA : A.Good G) (σ : Op → Option Nat) (ρ : Op → Nat)
    (hσ : ∀ o v, σ o = some v → ρ o = v) (e : AExp) (hv : e.Vars A G) (hc : e.NoCmp ∨ A.Uniform) :
    (∃ err, (∀ n, runA A G σ e n = (.error err, n)) ∧ ∃ err', direct A ρ e = .error err') ∨
    ∃ t, (∀ n, runA A G σ e n = (.ok t, n)) ∧ NumTm A t ∧
      Gives (A := A) (G := G) (fun o => some (ρ o)) t (direct A ρ e) := by
  have known : ∀ {v : Nat} {r : Except Err Nat},
      Gives (A := A) (G := G) (fun o => some (ρ o)) (valE v) r → r = .ok v := by
    intro v r h
    have := h 0
    simp only [valE, evaluate, Prod.mk.injEq, and_true] at this
    cases r with
    | error e => cases this
    | ok w =>
      simp only [Except.map, valE, Except.ok.injEq, Expr.atom.injEq, Atom.val.injEq] at this
      rw [this]
  induction e with
  | num v => exact .inr ⟨valE v, fun n => rfl, .val v, gives_val _ _⟩
  | var o =>
    simp only [AExp.Vars] at hv
    obtain ⟨hv, hb⟩ := hv
    cases h : σ o with
    | some v =>
      refine .inr ⟨valE v, fun n => ?_, .val v, ?_⟩
      · simp only [runA, numCtx, hv, h, if_true]
      · simp only [direct, hσ o v h]
        exact gives_val _ _
    | none =>
      refine .inr ⟨.node (.term o []) [], fun n => ?_, .var hv, fun m => ?_⟩
      · simp only [runA, numCtx, hv, h]
        exact callDefdata_num (A := A) hb (by simp) rfl (by simp) n
      · simp only [evaluate, evaluates, numCtx, hv, direct, if_true, Except.map]
  | un u a ih =>
    rcases ih hv hc with ⟨err, h1, err', h2⟩ | ⟨t, h1, h2, h3⟩
    · refine .inl ⟨err, fun n => by simp only [runA, h1], err', ?_⟩
      simp only [direct, h2, bind, Except.bind]
    · by_cases hx : ∃ v, t = valE v
      · obtain ⟨v, rfl⟩ := hx
        have hd := known h3
        have e1 : ∀ n, runA A G σ (.un u a) n = ((A.un u v).map valE, n) := by
          intro n; simp only [runA, h1, pyUn, valE]
        have e2 : direct A ρ (.un u a) = A.un u v := by
          simp only [direct, hd, bind, Except.bind]
        cases hr : A.un u v with
        | error e =>
          exact .inl ⟨e, fun n => by rw [e1, hr]; rfl, e, by rw [e2, hr]⟩
        | ok w =>
          exact .inr ⟨valE w, fun n => by rw [e1, hr]; rfl, .val w, by rw [e2, hr]; exact gives_val _ _⟩
      · refine .inr ⟨_, fun n => ?_, .un (u := u) h2, ?_⟩
        · simp only [runA, h1]
          exact (C30_immediate_unary hA σ u t n h2).2 (fun v e => hx ⟨v, e⟩)
        · exact gives_un hA h3
  | bin f a b iha ihb =>
    have ha := iha hv.1 (hc.imp And.left id)
    have hb := ihb hv.2 (hc.imp And.right id)
    rcases ha with ⟨err, h1, err', h2⟩ | ⟨t, h1, h2, h3⟩
    · refine .inl ⟨err, fun n => by simp only [runA, h1], err', ?_⟩
      simp only [direct, h2, bind, Except.bind]
    · rcases hb with ⟨err, k1, err', k2⟩ | ⟨s, k1, k2, k3⟩
      · refine .inl ⟨err, fun n => by simp only [runA, h1, k1], ?_⟩
        cases hd : direct A ρ a with
        | error e => exact ⟨e, by simp only [direct, hd, bind, Except.bind]⟩
        | ok w => exact ⟨err', by simp only [direct, hd, k2, bind, Except.bind]⟩
      · by_cases hx : (∃ v, t = valE v) ∧ ∃ w, s = valE w
        · obtain ⟨⟨v, rfl⟩, ⟨w, rfl⟩⟩ := hx
          have e1 : ∀ n, runA A G σ (.bin f a b) n = ((A.bin f v w).map valE, n) := by
            intro n; simp only [runA, h1, k1, pyBin, valE]
          have e2 : direct A ρ (.bin f a b) = A.bin f v w := by
            simp only [direct, known h3, known k3, bind, Except.bind]
          cases hr : A.bin f v w with
          | error e =>
            exact .inl ⟨e, fun n => by rw [e1, hr]; rfl, e, by rw [e2, hr]⟩
          | ok w =>
            exact .inr ⟨valE w, fun n => by rw [e1, hr]; rfl, .val w,
              by rw [e2, hr]; exact gives_val _ _⟩
        · refine .inr ⟨_, fun n => ?_, .bin (f := f) h2 k2, gives_bin hA h3 k3⟩
          simp only [runA, h1, k1]
          apply (C30_immediate_binary hA σ f t s n h2 k2).2
          by_cases hl : ∃ v, t = valE v
          · right; intro w e; exact hx ⟨hl, w, e⟩
          · left; intro v e; exact hl ⟨v, e⟩
  | cmp c a b iha ihb =>
    have hu : A.Uniform := hc.resolve_left id
    have ha := iha hv.1 (.inr hu)
    have hb := ihb hv.2 (.inr hu)
    rcases ha with ⟨err, h1, err', h2⟩ | ⟨t, h1, h2, h3⟩
    · refine .inl ⟨err, fun n => by simp only [runA, h1], err', ?_⟩
      simp only [direct, h2, bind, Except.bind]
    · rcases hb with ⟨err, k1, err', k2⟩ | ⟨s, k1, k2, k3⟩
      · refine .inl ⟨err, fun n => by simp only [runA, h1, k1], ?_⟩
        cases hd : direct A ρ a with
        | error e => exact ⟨e, by simp only [direct, hd, bind, Except.bind]⟩
        | ok w => exact ⟨err', by simp only [direct, hd, k2, bind, Except.bind]⟩
      · have P := fun n => pyLt_term hA σ c t s n h2 k2
        by_cases hl : ∃ v, t = valE v
        · obtain ⟨v, rfl⟩ := hl
          have hd := known h3
          by_cases hr : ∃ w, s = valE w
          · obtain ⟨w, rfl⟩ := hr
            have hd' := known k3
            obtain ⟨q, hq, _⟩ := hu c v w
            have e2 : direct A ρ (.cmp c a b) = .ok q := by
              simp only [direct, hd, hd', bind, Except.bind, Arith.pyCmp, hq]
            refine .inr ⟨valE q, fun n => ?_, .val q, by rw [e2]; exact gives_val _ _⟩
            simp only [runA, h1, k1, (P n).1 v w rfl rfl, Arith.pyCmp, hq, Except.map]
          · refine .inr ⟨_, fun n => ?_, .cmp (c := c.flip) k2 (.val v), ?_⟩
            · simp only [runA, h1, k1]
              exact (P n).2.2 v rfl (fun w e => hr ⟨w, e⟩)
            · have g := gives_cmp hA hu (c := c.flip) k3 (gives_val _ v)
              have e2 : direct A ρ (.cmp c a b) =
                  (direct A ρ b).bind (fun x => (Except.ok v).bind (A.pyCmp c.flip x)) := by
                simp only [direct, hd, bind, Except.bind]
                cases direct A ρ b with
                | error e => rfl
                | ok w => simp only [pyCmp_flip hu]
              rw [e2]
              exact g
        · refine .inr ⟨_, fun n => ?_, .cmp (c := c) h2 k2, gives_cmp hA hu h3 k3⟩
          simp only [runA, h1, k1]
          exact (P n).2.1 (fun v e => hl ⟨v, e⟩)

/-- C30: if an arithmetic expression without comparisons is built with some of its variables handled
(by `σ`) and the result is later evaluated with all variables handled (by `ρ`), the result is that of
computing the expression directly on the numbers, including the exception if there is one. -/
theorem C30_sound_arith (hA : A.Good G) (σ : Op → Option Nat) (ρ : Op → Nat)
    (hσ : ∀ o v, σ o = some v → ρ o = v) (e : AExp) (hv : e.Vars A G) (hc : e.NoCmp) (t : Expr)
    (n n' m : Nat) (h : runA A G σ e n = (.ok t, n')) :
    evaluate (numCtx A G (fun o => some (ρ o))) t m = ((direct A ρ e).map valE, m) := by
  rcases run_direct hA σ ρ hσ e hv (.inl hc) with ⟨err, h1, _⟩ | ⟨t', h1, _, h3⟩
  · rw [h1] at h; cases h
  · rw [h1] at h; cases h; exact h3 m

/-- C30: the same for expressions with comparisons, if the comparison methods are implemented for all
pairs of numbers. -/
theorem C30_sound_partial (hA : A.Good G) (hu : A.Uniform) (σ : Op → Option Nat) (ρ : Op → Nat)
    (hσ : ∀ o v, σ o = some v → ρ o = v) (e : AExp) (hv : e.Vars A G) (t : Expr) (n n' m : Nat)
    (h : runA A G σ e n = (.ok t, n')) :
    evaluate (numCtx A G (fun o => some (ρ o))) t m = ((direct A ρ e).map valE, m) := by
  rcases run_direct hA σ ρ hσ e hv (.inr hu) with ⟨err, h1, _⟩ | ⟨t', h1, _, h3⟩
  · rw [h1] at h; cases h
  · rw [h1] at h; cases h; exact h3 m

/-- C30: if building raises, so does the direct computation, for every assignment. -/
theorem C30_build_error (hA : A.Good G) (σ : Op → Option Nat) (ρ : Op → Nat)
    (hσ : ∀ o v, σ o = some v → ρ o = v) (e : AExp) (hv : e.Vars A G) (hc : e.NoCmp ∨ A.Uniform)
    (err : Err) (n n' : Nat) (h : runA A G σ e n = (.error err, n')) :
    ∃ err', direct A ρ e = .error err' := by
  rcases run_direct hA σ ρ hσ e hv hc with ⟨err, h1, h2⟩ | ⟨t', h1, _, h3⟩
  · exact h2
  · rw [h1] at h; cases h

/-- The main induction for two stages. -/
theorem run_staged (hA : A.Good G) (σ τ : Op → Option Nat) (e : AExp) (hv : e.Vars A G)
    (hc : e.NoCmp) :
    (∃ err, ∀ n, runA A G σ e n = (.error err, n)) ∨
    ∃ t, (∀ n, runA A G σ e n = (.ok t, n)) ∧ NumTm A t ∧
      ((∃ err, ∀ n, runA A G (fun o => (σ o).or (τ o)) e n = (.error err, n) ∧
          evaluate (numCtx A G τ) t n = (.error err, n)) ∨
        ∃ r, NumTm A r ∧ ∀ n, runA A G (fun o => (σ o).or (τ o)) e n = (.ok r, n) ∧
          evaluate (numCtx A G τ) t n = (.ok r, n)) := by
  induction e with
  | num v => exact .inr ⟨valE v, fun n => rfl, .val v, .inr ⟨valE v, .val v, fun n => ⟨rfl, rfl⟩⟩⟩
  | var o =>
    simp only [AExp.Vars] at hv
    obtain ⟨hv, hb⟩ := hv
    cases h : σ o with
    | some v =>
      refine .inr ⟨valE v, fun n => ?_, .val v, .inr ⟨valE v, .val v, fun n => ⟨?_, rfl⟩⟩⟩
      · simp only [runA, numCtx, hv, h, if_true]
      · simp only [runA, numCtx, hv, h, Option.some_or, if_true]
    | none =>
      refine .inr ⟨.node (.term o []) [], fun n => ?_, .var hv, .inr ?_⟩
      · simp only [runA, numCtx, hv, h]
        exact callDefdata_num (A := A) hb (by simp) rfl (by simp) n
      · cases h' : τ o with
        | some v =>
          refine ⟨valE v, .val v, fun n => ⟨?_, ?_⟩⟩
          · simp only [runA, numCtx, hv, h, h', Option.none_or, if_true]
          · simp only [evaluate, evaluates, numCtx, hv, h', if_true]
        | none =>
          have k := callDefdata_num (A := A) hb (by simp) rfl (by simp)
          refine ⟨.node (.term o []) [], .var hv, fun n => ⟨?_, ?_⟩⟩
          · simp only [runA, numCtx, hv, h, h', Option.none_or]
            exact k n
          · simp only [evaluate, evaluates, numCtx, hv, h']
            exact k n
  | un u a ih =>
    rcases ih hv hc with ⟨err, h1⟩ | ⟨t, h1, h2, h3⟩
    · exact .inl ⟨err, fun n => by simp only [runA, h1]⟩
    · by_cases hx : ∃ v, t = valE v
      · obtain ⟨v, rfl⟩ := hx
        have e1 : ∀ n, runA A G σ (.un u a) n = ((A.un u v).map valE, n) := by
          intro n; simp only [runA, h1, pyUn, valE]
        have e2 : ∀ n, runA A G (fun o => (σ o).or (τ o)) a n = (.ok (valE v), n) := by
          intro n
          rcases h3 with ⟨err, h⟩ | ⟨r, _, h⟩
          · have := (h n).2; cases this
          · have := (h n).2
            simp only [valE, evaluate, Prod.mk.injEq, Except.ok.injEq, and_true] at this
            subst this
            exact (h n).1
        have e3 : ∀ n, runA A G (fun o => (σ o).or (τ o)) (.un u a) n =
            ((A.un u v).map valE, n) := by
          intro n; simp only [runA, e2, pyUn, valE]
        cases hr : A.un u v with
        | error e => exact .inl ⟨e, fun n => by rw [e1, hr]; rfl⟩
        | ok w =>
          refine .inr ⟨valE w, fun n => by rw [e1, hr]; rfl, .val w, .inr ⟨valE w, .val w, fun n => ⟨?_, rfl⟩⟩⟩
          rw [e3, hr]; rfl
      · have b1 : ∀ n, runA A G σ (.un u a) n =
            (.ok (.node (.term (A.op (.un u)) [.pos]) [t]), n) := by
          intro n
          simp only [runA, h1]
          exact (C30_immediate_unary hA σ u t n h2).2 (fun v e => hx ⟨v, e⟩)
        refine .inr ⟨_, b1, .un h2, ?_⟩
        rcases h3 with ⟨err, h⟩ | ⟨r, hr, h⟩
        · refine .inl ⟨err, fun n => ⟨?_, ?_⟩⟩
          · simp only [runA, (h n).1]
          · simp only [evaluate, evaluates, (h n).2]
        · have c1 : ∀ n, runA A G (fun o => (σ o).or (τ o)) (.un u a) n =
              pyUn A G (fun o => (σ o).or (τ o)) u r n := by
            intro n; simp only [runA, (h n).1]
          have c2 := fun n => eval_un hA (u := u) (h n).2 hr
          have q1 := fun τ n => C30_immediate_unary hA τ u r n hr
          by_cases hv : ∃ v, r = valE v
          · obtain ⟨v, rfl⟩ := hv
            cases hw : A.un u v with
            | error e =>
              refine .inl ⟨e, fun n => ⟨?_, ?_⟩⟩
              · rw [c1, (q1 _ n).1 v rfl, hw]; rfl
              · rw [c2, (q1 _ n).1 v rfl, hw]; rfl
            | ok w =>
              refine .inr ⟨valE w, .val w, fun n => ⟨?_, ?_⟩⟩
              · rw [c1, (q1 _ n).1 v rfl, hw]; rfl
              · rw [c2, (q1 _ n).1 v rfl, hw]; rfl
          · refine .inr ⟨_, .un (u := u) hr, fun n => ⟨?_, ?_⟩⟩
            · rw [c1, (q1 _ n).2 (fun v e => hv ⟨v, e⟩)]
            · rw [c2, (q1 _ n).2 (fun v e => hv ⟨v, e⟩)]
  | bin f a b iha ihb =>
    rcases iha hv.1 hc.1 with ⟨err, h1⟩ | ⟨t, h1, h2, h3⟩
    · exact .inl ⟨err, fun n => by simp only [runA, h1]⟩
    · rcases ihb hv.2 hc.2 with ⟨err, k1⟩ | ⟨s, k1, k2, k3⟩
      · exact .inl ⟨err, fun n => by simp only [runA, h1, k1]⟩
      · have same : ∀ {v : Nat} {e : AExp},
            ((∃ err, ∀ n, runA A G (fun o => (σ o).or (τ o)) e n = (.error err, n) ∧
              evaluate (numCtx A G τ) (valE v) n = (.error err, n)) ∨
            ∃ r, NumTm A r ∧ ∀ n, runA A G (fun o => (σ o).or (τ o)) e n = (.ok r, n) ∧
              evaluate (numCtx A G τ) (valE v) n = (.ok r, n)) →
            ∀ n, runA A G (fun o => (σ o).or (τ o)) e n = (.ok (valE v), n) := by
          intro v e h n
          rcases h with ⟨err, h⟩ | ⟨r, _, h⟩
          · have := (h n).2; cases this
          · have := (h n).2
            simp only [valE, evaluate, Prod.mk.injEq, Except.ok.injEq, and_true] at this
            subst this
            exact (h n).1
        by_cases hx : (∃ v, t = valE v) ∧ ∃ w, s = valE w
        · obtain ⟨⟨v, rfl⟩, ⟨w, rfl⟩⟩ := hx
          have e1 : ∀ n, runA A G σ (.bin f a b) n = ((A.bin f v w).map valE, n) := by
            intro n; simp only [runA, h1, k1, pyBin, valE]
          have e3 : ∀ n, runA A G (fun o => (σ o).or (τ o)) (.bin f a b) n =
              ((A.bin f v w).map valE, n) := by
            intro n; simp only [runA, same h3, same k3, pyBin, valE]
          cases hr : A.bin f v w with
          | error e => exact .inl ⟨e, fun n => by rw [e1, hr]; rfl⟩
          | ok w =>
            refine .inr ⟨valE w, fun n => by rw [e1, hr]; rfl, .val w,
              .inr ⟨valE w, .val w, fun n => ⟨?_, rfl⟩⟩⟩
            rw [e3, hr]; rfl
        · have hx' : (∀ a, t ≠ valE a) ∨ ∀ b, s ≠ valE b := by
            by_cases hl : ∃ v, t = valE v
            · right; intro w e; exact hx ⟨hl, w, e⟩
            · left; intro v e; exact hl ⟨v, e⟩
          have b1 : ∀ n, runA A G σ (.bin f a b) n =
              (.ok (.node (.term (A.op (.bin f)) [.pos, .pos]) [t, s]), n) := by
            intro n
            simp only [runA, h1, k1]
            exact (C30_immediate_binary hA σ f t s n h2 k2).2 hx'
          refine .inr ⟨_, b1, .bin h2 k2, ?_⟩
          rcases h3 with ⟨err, h⟩ | ⟨r, hr, h⟩
          · refine .inl ⟨err, fun n => ⟨?_, ?_⟩⟩
            · simp only [runA, (h n).1]
            · simp only [evaluate, evaluates, (h n).2]
          · rcases k3 with ⟨err, k⟩ | ⟨q, hq, k⟩
            · refine .inl ⟨err, fun n => ⟨?_, ?_⟩⟩
              · simp only [runA, (h n).1, (k n).1]
              · simp only [evaluate, evaluates, (h n).2, (k n).2]
            · have c1 : ∀ n, runA A G (fun o => (σ o).or (τ o)) (.bin f a b) n =
                  pyBin A G (fun o => (σ o).or (τ o)) f r q n := by
                intro n; simp only [runA, (h n).1, (k n).1]
              have c2 := fun n => eval_bin hA (f := f) (h n).2 hr (k n).2 hq
              have q1 := fun τ n => C30_immediate_binary hA τ f r q n hr hq
              by_cases hv : (∃ v, r = valE v) ∧ ∃ w, q = valE w
              · obtain ⟨⟨v, rfl⟩, ⟨w, rfl⟩⟩ := hv
                cases hw : A.bin f v w with
                | error e =>
                  refine .inl ⟨e, fun n => ⟨?_, ?_⟩⟩
                  · rw [c1, (q1 _ n).1 v w rfl rfl, hw]; rfl
                  · rw [c2, (q1 _ n).1 v w rfl rfl, hw]; rfl
                | ok z =>
                  refine .inr ⟨valE z, .val z, fun n => ⟨?_, ?_⟩⟩
                  · rw [c1, (q1 _ n).1 v w rfl rfl, hw]; rfl
                  · rw [c2, (q1 _ n).1 v w rfl rfl, hw]; rfl
              · have hx' : (∀ a, r ≠ valE a) ∨ ∀ b, q ≠ valE b := by
                  by_cases hl : ∃ v, r = valE v
                  · right; intro w e; exact hv ⟨hl, w, e⟩
                  · left; intro v e; exact hl ⟨v, e⟩
                refine .inr ⟨_, .bin (f := f) hr hq, fun n => ⟨?_, ?_⟩⟩
                · rw [c1, (q1 _ n).2 hx']
                · rw [c2, (q1 _ n).2 hx']
  | cmp c a b iha ihb => exact absurd hc id

/-- C30: handling the variables in two stages, in building and in evaluating the result, gives the
same term or number (or exception) as handling them all at once. -/
theorem C30_staged (hA : A.Good G) (σ τ : Op → Option Nat) (e : AExp) (hv : e.Vars A G)
    (hc : e.NoCmp) (t : Expr) (n n' m : Nat) (h : runA A G σ e n = (.ok t, n')) :
    evaluate (numCtx A G τ) t m = runA A G (fun o => (σ o).or (τ o)) e m := by
  rcases run_staged hA σ τ e hv hc with ⟨err, h1⟩ | ⟨t', h1, _, h3⟩
  · rw [h1] at h; cases h
  · rw [h1] at h
    cases h
    rcases h3 with ⟨err, h⟩ | ⟨r, _, h⟩
    · rw [(h m).1, (h m).2]
    · rw [(h m).1, (h m).2]

/-! ## Comparisons of numbers of different types -/

/-- An arithmetic for examples: numbers below 100 are ints, others are floats, `200 + n` being equal
to `n`; 10 is False, 11 True, 12 NotImplemented. Ints do not know how to compare themselves with
floats. Binary operation 0 is addition of ints, 1 division by the second operand, with an
exception for 0. -/
def exArith : Arith where
  un _ a := .ok (a + 1)
  bin f a b := if f = 0 then .ok (a + b) else if b = 0 then .error (.user 0) else .ok (a / b)
  cmp c a b :=
    if a < 100 ∧ 100 ≤ b then none
    else
      let p := if a < 100 then a else a - 200
      let q := if b < 100 then b else b - 200
      some (match c with
        | .lt => if p < q then 11 else 10
        | .gt => if q < p then 11 else 10
        | .le => if p ≤ q then 11 else 10
        | .ge => if q ≤ p then 11 else 10)
  notImpl := 12
  op
    | .un u => ⟨4 * u + 100, 3⟩
    | .bin f => ⟨4 * f + 101, 2⟩
    | .cmp .lt => ⟨102, 2⟩
    | .cmp .gt => ⟨106, 2⟩
    | .cmp .le => ⟨110, 2⟩
    | .cmp .ge => ⟨114, 2⟩
  code o :=
    if o.id < 100 then none
    else if o.id % 4 = 0 then some (.un ((o.id - 100) / 4))
    else if o.id % 4 = 1 then some (.bin ((o.id - 101) / 4))
    else if o.id = 102 then some (.cmp .lt)
    else if o.id = 106 then some (.cmp .gt)
    else if o.id = 110 then some (.cmp .le)
    else if o.id = 114 then some (.cmp .ge)
    else none

/-- Signatures for the examples: kind 3 has one parameter, kind 2 has two, all others none. -/
def numSigs : Sigs where
  sig
    | 2 => ⟨[⟨.pos, false, ⟨[], [], ∅⟩⟩, ⟨.pos, false, ⟨[], [], ∅⟩⟩], ⟨[], [], ∅⟩⟩
    | 3 => ⟨[⟨.pos, false, ⟨[], [], ∅⟩⟩], ⟨[], [], ∅⟩⟩
    | _ => ⟨[], ⟨[], [], ∅⟩⟩
  root := 9

/-- C30 fails for comparisons of numbers of different types: `x() < 2.0` evaluated with `x = 1` is
`(1).__lt__(2.0)`, which is NotImplemented, whereas `1 < 2.0` is True. -/
theorem C30_comparison_fails :
    runA exArith numSigs (fun _ => none) (.cmp .lt (.var vx) (.num 202)) 0 =
      (.ok (.node (.term ⟨102, 2⟩ [.pos, .pos]) [call0 vx, valE 202]), 0) ∧
    evaluate (numCtx exArith numSigs (fun _ => some 1))
      (.node (.term ⟨102, 2⟩ [.pos, .pos]) [call0 vx, valE 202]) 0 = (.ok (valE 12), 0) ∧
    direct exArith (fun _ => 1) (.cmp .lt (.var vx) (.num 202)) = .ok 11 := by
  refine ⟨?_, ?_, ?_⟩ <;> decide

/-- C30, example: building `x() + 1 / 0` raises. -/
example : runA exArith numSigs (fun _ => none)
    (.bin 0 (.var vx) (.bin 1 (.num 1) (.num 0))) 0 = (.error (.user 0), 0) := by decide

/-- The hypotheses of the theorems hold for the example. -/
theorem exArith_good : exArith.Good numSigs where
  code c := by
    cases c with
    | un u =>
      have h1 : ¬ (4 * u + 100 < 100) := by omega
      have h2 : (4 * u + 100) % 4 = 0 := by omega
      have h3 : (4 * u + 100 - 100) / 4 = u := by omega
      simp only [exArith, h1, h2, h3, if_true, if_false]
    | bin f =>
      have h1 : ¬ (4 * f + 101 < 100) := by omega
      have h2' : (4 * f + 101) % 4 = 1 := by omega
      have h3 : (4 * f + 101 - 101) / 4 = f := by omega
      simp only [exArith, h1, h2', h3, if_true, if_false]
      rfl
    | cmp c => cases c <;> rfl
  un u x := rfl
  bin f x y := rfl
  cmp c x y := by cases c <;> rfl

/-- C30, example: `x() + (1 + 2)` is built as the term `x() + 3`. -/
example : runA exArith numSigs (fun _ => none) (.bin 0 (.var vx) (.bin 0 (.num 1) (.num 2))) 0 =
    (.ok (.node (.term ⟨101, 2⟩ [.pos, .pos]) [call0 vx, valE 3]), 0) := by decide

/-- C30, example: and evaluates to 7 for `x = 4`. -/
example : evaluate (numCtx exArith numSigs (fun _ => some 4))
    (.node (.term ⟨101, 2⟩ [.pos, .pos]) [call0 vx, valE 3]) 0 = (.ok (valE 7), 0) := by decide

/-- C30, example: `1 < x()` is built as `__gt__(x(), 1)`. -/
example : runA exArith numSigs (fun _ => none) (.cmp .lt (.num 1) (.var vx)) 0 =
    (.ok (.node (.term ⟨106, 2⟩ [.pos, .pos]) [call0 vx, valE 1]), 0) := by decide

/-! ## Equality and hash of terms (C31) -/

/-- The Python class of a term object. -/
inductive TermClass : Type where
  /-- `_NumberTerm` and its subclasses: `__hash__` is `id(self)` (`ops/syntax.py` 1011-1012) -/
  | number
  /-- other subclasses of `_BaseTerm`, which defines `__eq__` and so has no `__hash__`
  (`ops/syntax.py` 581-611) -/
  | base
  deriving DecidableEq

/-- A term object: its identity, class and contents. -/
structure TermObj where
  ref : Nat
  cls : TermClass
  expr : Expr

/-- `hash(t)`; none for unhashable objects. -/
def TermObj.hash (t : TermObj) : Option Nat :=
  match t.cls with
  | .number => some t.ref
  | .base => none

/-- `t == u`, with `__eq__` not handled: `syntactic_eq`. -/
def TermObj.eq (t u : TermObj) : Bool := synEq plainEq t.expr u.expr

/-- A lookup in a dict with term objects as keys: the hash is compared first (the identity also
counts as equality). -/
def TermObj.find (t : TermObj) : List (TermObj × Nat) → Option Nat
  | [] => none
  | (u, v) :: d => if u.hash = t.hash ∧ (u.ref = t.ref ∨ u.eq t = true) then some v else t.find d

/-- C31 fails for all number terms: any two objects with the same contents are equal and have
different hashes. -/
theorem C31_hash_fails (e : Expr) (he : Val e) (r s : Nat) (h : r ≠ s) :
    (TermObj.mk r .number e).eq (TermObj.mk s .number e) = true ∧
      (TermObj.mk r .number e).hash ≠ (TermObj.mk s .number e).hash :=
  ⟨C20_reflexive plainEq plainEq_quiet plainEq_equiv e he, by simpa [TermObj.hash] using h⟩

/-- C31 fails, consequence: a dict does not find an equal number term that is another object. -/
theorem C31_dict_fails (t : TermObj) (d : List (TermObj × Nat)) (ht : t.cls = .number)
    (hd : ∀ e ∈ d, e.1.ref ≠ t.ref) : t.find d = none := by
  induction d with
  | nil => rfl
  | cons e d ih =>
    obtain ⟨u, v⟩ := e
    have hne : u.hash ≠ t.hash := by
      unfold TermObj.hash
      rw [ht]
      cases hu : u.cls with
      | number => simpa using hd (u, v) List.mem_cons_self
      | base => simp
    rw [TermObj.find, if_neg (fun h => hne h.1)]
    exact ih (fun e he => hd e (List.mem_cons_of_mem _ he))

/-- C31: a hashable term has the same hash as itself; more is not true. -/
theorem C31_same_object_partial (t u : TermObj) (ht : t.hash ≠ none) (hu : u.hash ≠ none) :
    t.hash = u.hash ↔ t.ref = u.ref := by
  unfold TermObj.hash at *
  cases h : t.cls <;> cases h' : u.cls <;> simp_all

/-- C31, example: two objects for `x()`. -/
example : Val (call0 vx) ∧ (TermObj.mk 1 .number (call0 vx)).find
    [(TermObj.mk 2 .number (call0 vx), 5)] = none :=
  ⟨.term rfl (by simp [kwArgs]) (by simp), by decide⟩

end Verif.Terms
