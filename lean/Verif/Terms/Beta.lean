import Verif.Terms.BindProps

/-!
# Bodies that call callable terms

`_CallableTerm.__call__` is itself an operation, so evaluating the body of a deffn term can call
deffn terms again.
-/

namespace Verif.Terms

open Verif.Scoped (Sig Err TyVar Ext)

/-- Positional arguments of a call. -/
def posArgs : List Slot → List Expr → List Expr
  | .pos :: sl, x :: xs => x :: posArgs sl xs
  | .kw _ :: sl, _ :: xs => posArgs sl xs
  | _, _ => []

/-- Keyword arguments of a call. -/
def kwArgs : List Slot → List Expr → List (String × Expr)
  | .kw k :: sl, x :: xs => (k, x) :: kwArgs sl xs
  | .pos :: sl, _ :: xs => kwArgs sl xs
  | _, _ => []

/-- Evaluation under handlers that map variables to values, as `subCtx`, with `call` the operation
`_CallableTerm.__call__` (`ops/syntax.py` 662-688): a deffn term is applied, under the handlers in
force extended by the new ones; a call without free variables calls itself for ever; all other calls
stay terms. The first argument is the number of nested calls that is possible before a
RecursionError. -/
def betaCtx (G : Sigs) (dfn call : Op) : Nat → Subs → Ctx Nat
  | 0, σ =>
    { callOp := fun o sl ys n =>
        if o = call then (.error .recursion, n) else (subCtx G σ).callOp o sl ys n
      opVal := id }
  | k + 1, σ =>
    { callOp := fun o sl ys n =>
        if o = call then
          match sl, ys with
          | _ :: sl, f :: args =>
            let asTerm : Except Err Expr × Nat :=
              match fvsof G (.node (.seq .tuple) (f :: args)) n with
              | .error e => (.error e, n)
              | .ok [] => (.error .recursion, n)
              | .ok _ => (subCtx G σ).callOp o (.pos :: sl) (f :: args) n
            match f with
            | .node (.term o' (_ :: sl')) (body :: vars) =>
              if o' = dfn then
                match mkSubs (argVars sl' vars) (kwVars sl' vars) (posArgs sl args)
                    (kwArgs sl args) with
                | .error e => (.error e, n)
                | .ok τ => evaluate (betaCtx G dfn call k (τ ++ σ)) body n
              else asTerm
            | _ => asTerm
          | _, _ => (.error .type, n)
        else (subCtx G σ).callOp o sl ys n
      opVal := id }

/-- `f(*args)` at top level, where `f` is a callable term. -/
def callBeta (G : Sigs) (dfn call : Op) (k : Nat) (f : Expr) (args : List Expr) (n : Nat) :
    Except Err Expr :=
  ((betaCtx G dfn call k []).callOp call (.pos :: args.map (fun _ => .pos)) (f :: args) n).1

mutual

/-- The operation is not applied in the expression. -/
def NoCall (call : Op) : Expr → Prop
  | .node (.term o _) xs => o ≠ call ∧ NoCalls call xs
  | .node _ xs => NoCalls call xs
  | _ => True

def NoCalls (call : Op) : List Expr → Prop
  | [] => True
  | x :: xs => NoCall call x ∧ NoCalls call xs

end

theorem noCalls_iff {call : Op} {xs : List Expr} : NoCalls call xs ↔ ∀ x ∈ xs, NoCall call x := by
  induction xs with
  | nil => simp [NoCalls]
  | cons x xs ih => simp [NoCalls, ih]

theorem evaluates_congr {S : Type} {c d : Ctx S} {xs : List Expr}
    (h : ∀ x ∈ xs, ∀ s, evaluate c x s = evaluate d x s) (s : S) :
    evaluates c xs s = evaluates d xs s := by
  induction xs generalizing s with
  | nil => rfl
  | cons x xs ih =>
    simp only [evaluates]
    rw [h x List.mem_cons_self s]
    have ih' := fun s => ih (fun y hy => h y (List.mem_cons_of_mem _ hy)) s
    simp only [ih']

/-- Without calls of callable terms in the body, evaluation is that of `callFn`. -/
theorem evaluate_beta (G : Sigs) (dfn call : Op) (k : Nat) (σ : Subs) (e : Expr) (h : NoCall call e)
    (n : Nat) : evaluate (betaCtx G dfn call k σ) e n = evaluate (subCtx G σ) e n := by
  induction e using Expr.ind generalizing n with
  | atom a => rfl
  | op o => cases k <;> rfl
  | node t xs ih =>
    by_cases hp : Tag.plain t = true
    · have hx : NoCalls call xs := by
        cases t with
        | term o sl => cases hp
        | _ => exact h
      rw [noCalls_iff] at hx
      rw [evaluate_plain _ _ _ _ hp, evaluate_plain _ _ _ _ hp,
        evaluates_congr (fun x hm s => ih x hm (hx x hm) s)]
    · rcases not_plain (by simpa using hp) with ⟨o, sl, rfl⟩ | rfl | ⟨m, rfl⟩
      · simp only [NoCall, noCalls_iff] at h
        simp only [evaluate]
        rw [evaluates_congr (fun x hm s => ih x hm (h.2 x hm) s)]
        cases k <;> simp only [betaCtx, if_neg h.1]
      · rfl
      · rfl

/-- C18: for a body without calls of callable terms, a call of a deffn term is `callFn`, to which
`C18_beta_partial` applies. -/
theorem C18_call_partial (G : Sigs) (dfn call : Op) (k : Nat) (s0 : Slot) (sl : List Slot)
    (body : Expr) (vars args : List Expr) (n : Nat) (h : NoCall call body) :
    callBeta G dfn call (k + 1) (.node (.term dfn (s0 :: sl)) (body :: vars)) args n =
      callFn G dfn (.node (.term dfn (s0 :: sl)) (body :: vars)) args [] n := by
  have hp : ∀ args : List Expr, posArgs (args.map (fun _ => Slot.pos)) args = args := by
    intro args
    induction args with
    | nil => rfl
    | cons a args ih => simp only [List.map_cons, posArgs, ih]
  have hk : ∀ args : List Expr, kwArgs (args.map (fun _ => Slot.pos)) args = [] := by
    intro args
    induction args with
    | nil => rfl
    | cons a args ih => simp only [List.map_cons, kwArgs, ih]
  simp only [callBeta, betaCtx, if_true, hp, hk, callFn]
  cases mkSubs (argVars sl vars) (kwVars sl vars) args [] with
  | error e => rfl
  | ok σ =>
    simp only [List.append_nil]
    rw [evaluate_beta G dfn call k σ body h n]

/-! ## Self-application -/

mutual

/-- Equality of nameless expressions is decidable. -/
def DExpr.decEq : (a b : DExpr) → Decidable (a = b)
  | .atom a, .atom b =>
    if h : a = b then isTrue (by rw [h]) else isFalse (by simpa using h)
  | .op a, .op b => if h : a = b then isTrue (by rw [h]) else isFalse (by simpa using h)
  | .term v sl xs, .term w sl' ys =>
    if h : v = w ∧ sl = sl' then
      match DExpr.decEqs xs ys with
      | isTrue h' => isTrue (by rw [h.1, h.2, h'])
      | isFalse h' => isFalse (by intro e; cases e; exact h' rfl)
    else isFalse (by intro e; cases e; exact h ⟨rfl, rfl⟩)
  | .node t xs, .node u ys =>
    if h : t = u then
      match DExpr.decEqs xs ys with
      | isTrue h' => isTrue (by rw [h, h'])
      | isFalse h' => isFalse (by intro e; cases e; exact h' rfl)
    else isFalse (by intro e; cases e; exact h rfl)
  | .atom _, .op _ => isFalse (by intro e; cases e)
  | .atom _, .node _ _ => isFalse (by intro e; cases e)
  | .atom _, .term _ _ _ => isFalse (by intro e; cases e)
  | .op _, .atom _ => isFalse (by intro e; cases e)
  | .op _, .node _ _ => isFalse (by intro e; cases e)
  | .op _, .term _ _ _ => isFalse (by intro e; cases e)
  | .node _ _, .atom _ => isFalse (by intro e; cases e)
  | .node _ _, .op _ => isFalse (by intro e; cases e)
  | .node _ _, .term _ _ _ => isFalse (by intro e; cases e)
  | .term _ _ _, .atom _ => isFalse (by intro e; cases e)
  | .term _ _ _, .op _ => isFalse (by intro e; cases e)
  | .term _ _ _, .node _ _ => isFalse (by intro e; cases e)

def DExpr.decEqs : (a b : List DExpr) → Decidable (a = b)
  | [], [] => isTrue rfl
  | [], _ :: _ => isFalse (by intro e; cases e)
  | _ :: _, [] => isFalse (by intro e; cases e)
  | x :: xs, y :: ys =>
    match DExpr.decEq x y, DExpr.decEqs xs ys with
    | isTrue h, isTrue h' => isTrue (by rw [h, h'])
    | isFalse h, _ => isFalse (by intro e; cases e; exact h rfl)
    | _, isFalse h' => isFalse (by intro e; cases e; exact h' rfl)

end

instance : DecidableEq DExpr := DExpr.decEq

instance (G : Sigs) (a b : Expr) : Decidable (Alpha G a b) :=
  inferInstanceAs (Decidable (toDB G [] a = toDB G [] b))

/-- `_CallableTerm.__call__`, of kind 2 in `exSigs` (two parameters, no binding). -/
def vcall : Op := ⟨5, 2⟩

/-- `f(a)` for a callable term `f`. -/
def app (f a : Expr) : Expr := .node (.term vcall [.pos, .pos]) [f, a]

/-- `t = deffn(deffn(y()(z()), z), y)`. -/
def tt : Expr := lam (lam (app (call0 vy) (call0 vz)) vz) vy

/-- `t` is what the constructors build, up to the numbers of the operations: no operation is bound
twice or is both bound and free. -/
example : ∃ n, evaluate (freeCtx exSigs) tt 10 =
    (.ok (lam (lam (app (call0 ⟨13, 1⟩) (call0 ⟨11, 1⟩)) ⟨11, 1⟩) ⟨13, 1⟩), n) := ⟨14, by decide⟩

/-- C18, example: `deffn(y()(z()), y)(deffn(fn(x(), z()), x))` is `fn(z(), z())`. -/
example : callBeta exSigs dfn vcall 5 (lam (app (call0 vy) (call0 vz)) vy)
    [lam (call2 (call0 vx) (call0 vz)) vx] 10 = .ok (call2 (call0 vz) (call0 vz)) := by decide

/-- C18 fails for self-application, with a term built from distinct variables only: `t(t)` for
`t = deffn(deffn(y()(z()), z), y)` should be `λz. λz'. z(z')`. The result is `λz. λz'. z'(z')`: the
binder `z` of `t` captures the argument `z()`. -/
theorem C18_self_application_fails :
    callBeta exSigs dfn vcall 5 tt [tt] 10 =
      .ok (lam (lam (app (call0 ⟨11, 1⟩) (call0 ⟨11, 1⟩)) ⟨11, 1⟩) ⟨13, 1⟩) ∧
    ¬ Alpha exSigs (lam (lam (app (call0 ⟨11, 1⟩) (call0 ⟨11, 1⟩)) ⟨11, 1⟩) ⟨13, 1⟩)
      (lam (lam (app (call0 vy) (call0 vz)) vz) vy) := by
  decide

/-- The variables of the outer function are still replaced while an inner one is called: if the argument of
`deffn(deffn(fn(y(), x()), y)(z()), x)` mentions `x` itself, such as `fn(x(), z())`, it is substituted twice,
`fn(z(), fn(fn(x(), z()), z()))`. -/
example : callBeta exSigs dfn vcall 5 (lam (app (lam (call2 (call0 vy) (call0 vx)) vy) (call0 vz)) vx)
    [call2 (call0 vx) (call0 vz)] 10 =
    .ok (call2 (call0 vz) (call2 (call2 (call0 vx) (call0 vz)) (call0 vz))) := by decide

/-- Calls need not terminate: `w(w)` for `w = deffn(y()(y()), y)` exhausts the
recursion limit. As in the lambda calculus. -/
example : callBeta exSigs dfn vcall 5 (lam (app (call0 vy) (call0 vy)) vy)
    [lam (app (call0 vy) (call0 vy)) vy] 10 = .error .recursion := by decide

end Verif.Terms
