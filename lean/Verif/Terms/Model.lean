import Verif.Scoped.Model

/-!
# evaluate, defdata, fvsof and calls of deffn terms

Model of `ops/semantics.py` 118-226 and 286-314, `ops/syntax.py` 388-549 and 662-688.
-/

namespace Verif.Terms

open Verif.Scoped (Sig Err TyVar)

/-! ## evaluate -/

/-- `d[k] = v` for a dict given by alternating keys and values: the position and the key object of an
equal key are kept. -/
def dictInsert (k v : Expr) : List Expr → List Expr
  | k' :: v' :: rest => if k' = k then k' :: v :: rest else k' :: v' :: dictInsert k v rest
  | _ => [k, v]

/-- `dict(pairs)`: insert the pairs one after the other. Simplified: keys are hashable. -/
def dictLoop (acc : List Expr) : List Expr → List Expr
  | k :: v :: rest => dictLoop (dictInsert k v acc) rest
  | _ => acc

/-- The container that is built from the evaluated parts: `ops/semantics.py` 199-210 (tuples),
213-215 (sequences), 184-196 (mappings), 151-166 (dataclasses: `dataclasses.replace` raises
ValueError if it is given a field with `init=False`). -/
def build : Tag → List Expr → Except Err Expr
  | .map k, ys => .ok (.node (.map k) (dictLoop [] ys))
  | .data cls fs, ys =>
    if fs.any (fun f => !f.2) then .error .value else .ok (.node (.data cls fs) ys)
  | t, ys => .ok (.node t ys)

/-- What evaluation depends on: `callOp o slots args` is the call `o(*args, **kwargs)` under the
interpretation in force, which may change a state `S` and raise; `opVal` is the replacement of
operations that are mapped to operations (`ops/semantics.py` 176-181). -/
structure Ctx (S : Type) where
  callOp : Op → List Slot → List Expr → S → Except Err Expr × S
  opVal : Op → Op

variable {S : Type}

mutual

/-- `evaluate(expr)` (`ops/semantics.py` 118-226) under a given interpretation. Sets are not
registered, so they are returned as they are (object rule, 151-166). A sequence type that cannot be
built from an iterator raises before any item is evaluated (215). Simplified: dict views are left
out. -/
def evaluate (c : Ctx S) : Expr → S → Except Err Expr × S
  | .atom a, s => (.ok (.atom a), s)
  | .op o, s => (.ok (.op (c.opVal o)), s)
  | .node (.term o sl) xs, s =>
    match evaluates c xs s with
    | (.error e, s') => (.error e, s')
    | (.ok ys, s') => c.callOp o sl ys s'
  | .node .set xs, s => (.ok (.node .set xs), s)
  | .node (.seq (.other _ false)) _, s => (.error .type, s)
  | .node t xs, s =>
    match evaluates c xs s with
    | (.error e, s') => (.error e, s')
    | (.ok ys, s') => (build t ys, s')

/-- Evaluation of arguments, items, fields: from left to right. -/
def evaluates (c : Ctx S) : List Expr → S → Except Err (List Expr) × S
  | [], s => (.ok [], s)
  | x :: xs, s =>
    match evaluate c x s with
    | (.error e, s') => (.error e, s')
    | (.ok y, s') =>
      match evaluates c xs s' with
      | (.error e, s'') => (.error e, s'')
      | (.ok ys, s'') => (.ok (y :: ys), s'')

end

/-! ## defdata -/

/-- The signatures of the operations, and the type variable that is used as root scope. -/
structure Sigs where
  sig : Nat → Sig
  root : TyVar

/-- `op.__fvs_rule__(*args, **kwargs)` (`ops/types.py` 414-451). -/
def Sigs.bounds (G : Sigs) (o : Op) (sl : List Slot) (xs : List Expr) :
    Except Err (List (List Op)) :=
  (G.sig o.kind).fvsRule G.root sl xs

/-- A renaming as a dict from operations to operations. -/
abbrev Renaming := List (Op × Op)

/-- `d[v] = w`. -/
def Renaming.set (v w : Op) : Renaming → Renaming
  | [] => [(v, w)]
  | (v', w') :: ρ => if v' = v then (v', w) :: ρ else (v', w') :: Renaming.set v w ρ

/-- The dict comprehension `{var: defop(var) for …}` (`ops/syntax.py` 494-498). `defop(var)` creates
a new operation with the signature of `var`; `n` is the number of operations created so far. -/
def freshen : List Op → Renaming → Nat → Renaming × Nat
  | [], ρ, n => (ρ, n)
  | v :: vs, ρ, n => freshen vs (Renaming.set v ⟨n, v.kind⟩ ρ) (n + 1)

/-- `renaming.get(o, o)`. -/
def ren (ρ : Renaming) (o : Op) : Op := (ρ.lookup o).getD o

/-- Evaluation under `analysis | renaming_ctx` (`ops/syntax.py` 519-531): operations in the dict are
replaced by their new operation, both as values and as operations of terms; all other calls are
handled by the `cast` analysis, which rebuilds the term. Simplified: the types computed by the `typ`
analysis select only the Python class of the term, which is not modelled. -/
def renCtx (ρ : Renaming) : Ctx Nat where
  callOp o sl ys n := (.ok (.node (.term (ren ρ o) sl) ys), n)
  opVal := ren ρ

/-- The arguments after `evaluate_with_renaming` (`ops/syntax.py` 519-543): each argument is
evaluated with the part of the renaming that is bound in it. -/
def renameArgs (ρ : Renaming) : List Expr → List (List Op) → Nat → Except Err (List Expr)
  | x :: xs, B :: Bs, n =>
    match (evaluate (renCtx (ρ.filter (fun e => B.contains e.1))) x n).1 with
    | .error e => .error e
    | .ok y =>
      match renameArgs ρ xs Bs n with
      | .error e => .error e
      | .ok ys => .ok (y :: ys)
  | _, _, _ => .ok []

/-- `defdata(op, *args, **kwargs)` (`ops/syntax.py` 429-549). -/
def defdata (G : Sigs) (o : Op) (sl : List Slot) (xs : List Expr) (n : Nat) :
    Except Err (Expr × Nat) :=
  match G.bounds o sl xs with
  | .error e => .error e
  | .ok Bs =>
    let (ρ, n') := freshen Bs.flatten [] n
    match renameArgs ρ xs Bs n' with
    | .error e => .error e
    | .ok ys => .ok (.node (.term o sl) ys, n')

/-! ## Interpretations -/

/-- `defdata` as a call with a state that has the counter as a part. -/
def callDefdata (G : Sigs) (get : S → Nat) (put : Nat → S → S) (o : Op) (sl : List Slot)
    (ys : List Expr) (s : S) : Except Err Expr × S :=
  match defdata G o sl ys (get s) with
  | .error e => (.error e, s)
  | .ok (t, n) => (.ok t, put n s)

/-- The empty interpretation, for operations without default: `__default_rule__` catches NotHandled
and calls `defdata` (`ops/types.py` 361-374). -/
def freeCtx (G : Sigs) : Ctx Nat where
  callOp := callDefdata G id (fun n _ => n)
  opVal := id

/-- `_update_fvs` (`ops/semantics.py` 302-309). The state is the counter and the set `_fvs`. -/
def fvsCtx (G : Sigs) : Ctx (Nat × List Op) where
  callOp o sl ys s :=
    match G.bounds o sl ys with
    | .error e => (.error e, (s.1, if s.2.contains o then s.2 else s.2 ++ [o]))
    | .ok Bs =>
      let fvs := (if s.2.contains o then s.2 else s.2 ++ [o]).filter
        (fun v => !Bs.flatten.contains v)
      callDefdata G Prod.fst (fun n s => (n, s.2)) o sl ys (s.1, fvs)
  opVal := id

/-- `fvsof(term)` (`ops/semantics.py` 286-314), started with `n` operations created. -/
def fvsof (G : Sigs) (e : Expr) (n : Nat) : Except Err (List Op) :=
  match evaluate (fvsCtx G) e (n, []) with
  | (.error err, _) => .error err
  | (.ok _, s) => .ok s.2

/-! ## Calling deffn terms -/

/-- The handlers `{v: functools.partial(lambda x: x, a)}` (`ops/syntax.py` 677-682). -/
abbrev Subs := List (Op × Expr)

/-- Evaluation under `handler(subs)`, for operations without default (`ops/syntax.py` 683-684).  The
handler of a variable returns the argument and accepts no arguments of its own. Operations as values
are not replaced, because the handlers are no operations. -/
def subCtx (G : Sigs) (σ : Subs) : Ctx Nat where
  callOp o sl ys n :=
    match σ.lookup o with
    | some a => if ys = [] then (.ok a, n) else (.error .type, n)
    | none => callDefdata G id (fun n _ => n) o sl ys n
  opVal := id

/-- The positional variables `self.args[1:]` of a deffn term. -/
def argVars : List Slot → List Expr → List Op
  | .pos :: sls, .op v :: xs => v :: argVars sls xs
  | _ :: sls, _ :: xs => argVars sls xs
  | _, _ => []

/-- The keyword variables `self.kwargs` of a deffn term. -/
def kwVars : List Slot → List Expr → List (String × Op)
  | .kw k :: sls, .op v :: xs => (k, v) :: kwVars sls xs
  | _ :: sls, _ :: xs => kwVars sls xs
  | _, _ => []

/-- The dict of `subs` (`ops/syntax.py` 677-682): `zip` stops at the shorter list; `kwvars[k]` raises
KeyError. -/
def mkSubs (vars : List Op) (kvars : List (String × Op)) (args : List Expr) :
    List (String × Expr) → Except Err Subs
  | [] => .ok (vars.zip args)
  | (k, a) :: kwargs =>
    match kvars.lookup k with
    | none => .error .key
    | some v => (mkSubs vars kvars args kwargs).map ((v, a) :: ·)

/-- `t(*args, **kwargs)` for a deffn term `t` (`ops/syntax.py` 662-684) under no handlers, for bodies
without calls of callable terms; `Terms/Beta.lean` has those calls. -/
def callFn (G : Sigs) (deffn : Op) (t : Expr) (args : List Expr) (kwargs : List (String × Expr))
    (n : Nat) : Except Err Expr :=
  match t with
  | .node (.term o (_ :: sl)) (body :: vars) =>
    if o = deffn then
      match mkSubs (argVars sl vars) (kwVars sl vars) args kwargs with
      | .error e => .error e
      | .ok σ => (evaluate (subCtx G σ) body n).1
    else .error .type
  | _ => .error .type

end Verif.Terms
