/-!
# Products of interpretations

Model of `internals/product_n.py` 37-214 (`argsof`, `_pack`, `_unpack`, `map_structure`, `productN`).

Simplifications: arguments are positional; containers are tuples; a call of an operation that is
mapped to a renamed operation by the translation (122-124) is resolved in one step instead of by
nested `handler` blocks; a call that recurses for ever is the error `recursion`.
-/

namespace Verif.Product

/-- Operations: those of the program, `Operation.__apply__`, and the copies
`renaming[(prompt, op)] = defop(op)` (113). -/
inductive Op where
  | base (n : Nat)
  | apply
  | ren (p : Nat) (o : Op)
  deriving DecidableEq, Repr

/-- Values. `prod r` is a `Product` (42-46), given by its address. -/
inductive Val where
  | int (n : Int)
  | op (o : Op)
  | tup (xs : List Val)
  | term (o : Op) (xs : List Val)
  | prod (r : Nat)
  deriving Repr

inductive Err where
  | notHandled
  | runtime
  | key
  | recursion
  | user (n : Nat)
  deriving DecidableEq, Repr

abbrev Res := Except Err Val

/-- Bodies of handlers and default rules: results, a visible effect, calls of operations, `fwd`, the
request of a component `p()` and `argsof(p)`. Outcomes can be caught. -/
inductive Prog where
  | ret (v : Val)
  | raise (e : Err)
  | tick (n : Nat) (k : Prog)
  | call (o : Op) (xs : List Val) (k : Res → Prog)
  | fwd (xs : List Val) (k : Res → Prog)
  | need (p : Nat) (k : Res → Prog)
  | argsof (p : Nat) (k : Res → Prog)

/-- An interpretation. -/
abbrev Intp := Op → Option (List Val → Prog)

/-- The arguments of `productN` and the default rules of the operations. -/
structure Sys where
  prompts : List Nat
  intp : Nat → Intp
  dflt : Op → List Val → Prog

/-- `result_ops` (109): the operations handled by at least one interpretation. -/
def Sys.handled (S : Sys) (o : Op) : Bool := S.prompts.any (fun p => (S.intp p o).isSome)

/-- The three ways of computing a component (176-203). -/
inductive Kind where
  | direct
  | viaApply
  | dflt
  deriving DecidableEq, Repr

/-- A `CallByNeed` (17-34) made by `product_op`. -/
structure Thunk where
  prompt : Nat
  kind : Kind
  op : Op
  args : List Val
  memo : Option Val
  deriving Repr

/-- A product: `result_intp` without `argsof` (140). -/
abbrev Prod := List Thunk

structure St where
  heap : List Prod
  log : List Nat
  deriving Repr

/-- Where a computation runs: under one interpretation alone; inside component `p` of a product; or
under the product interpretation. -/
inductive Mode where
  | alone (i : Intp)
  | comp (r p : Nat)
  | top

abbrev Out := Option (Res × St)

/-- Execution with less fuel. -/
abbrev Exec := Mode → Option Op → Prog → St → Out

def okOut (v : Val) (s : St) : Out := some (.ok v, s)
def errOut (e : Err) (s : St) : Out := some (.error e, s)

/-- `op.__default_rule__(*args)` (`ops/types.py` 361-374). Copies raise NotHandled (283-285); the
default of `apply` is the default rule of its first argument (546-575). -/
def defaultRule (S : Sys) (E : Exec) (m : Mode) : Op → List Val → St → Out
  | .ren p o, xs, s => okOut (.term (.ren p o) xs) s
  | .apply, .op (.base n) :: xs, s =>
    match E m none (S.dflt (.base n) xs) s with
    | some (.error .notHandled, s') => okOut (.term (.base n) xs) s'
    | r => r
  | .apply, .op o :: xs, s => okOut (.term o xs) s
  | .apply, _, s => errOut .runtime s
  | .base n, xs, s =>
    match E m none (S.dflt (.base n) xs) s with
    | some (.error .notHandled, s') => okOut (.term (.base n) xs) s'
    | r => r

/-- The component of a prompt. -/
def findThunk (p : Nat) : Prod → Option Thunk
  | [] => none
  | t :: ts => if t.prompt = p then some t else findThunk p ts

/-- `self.value = …; self.initialized = True` (32-33). -/
def setMemo (p : Nat) (v : Val) : Prod → Prod
  | [] => []
  | t :: ts => if t.prompt = p then { t with memo := some v } :: ts else t :: setMemo p v ts

/-- `CallByNeed.func(*args)` for a component of product `r` (176-203): the handler of the
interpretation, or its `apply` handler, or the default rule. -/
def runThunk (S : Sys) (E : Exec) (r : Nat) (t : Thunk) (s : St) : Out :=
  match t.kind with
  | .direct =>
    match S.intp t.prompt t.op with
    | some h => E (.comp r t.prompt) (some (.ren t.prompt t.op)) (h t.args) s
    | none => errOut .runtime s
  | .viaApply =>
    match S.intp t.prompt .apply with
    | some h => E (.comp r t.prompt) (some (.ren t.prompt .apply)) (h t.args) s
    | none => errOut .runtime s
  | .dflt => defaultRule S E (.comp r t.prompt) t.op t.args s

/-- `x.values(prompt)` (49-57): `prompt()` under `interpreter(result_intp)`; `CallByNeed.__call__`
(30-34). -/
def force (S : Sys) (E : Exec) (p r : Nat) (s : St) : Out :=
  match s.heap[r]? with
  | none => errOut .runtime s
  | some pr =>
    match findThunk p pr with
    | none => errOut .key s
    | some t =>
      match t.memo with
      | some v => okOut v s
      | none =>
        match runThunk S E r t s with
        | some (.ok v, s') =>
          okOut v { s' with heap := s'.heap.modify r (setMemo p v) }
        | x => x

mutual

/-- `map_structure(lambda x: _unpack(x, prompt), v)` (61-103, 55-58). -/
def unpack (f : Nat → St → Out) : Val → St → Out
  | .prod r, s => f r s
  | .tup xs, s =>
    match unpackL f xs s with
    | some (.ok ys, s') => okOut (.tup ys) s'
    | some (.error e, s') => errOut e s'
    | none => none
  | v, s => okOut v s
termination_by structural v => v

def unpackL (f : Nat → St → Out) : List Val → St → Option (Except Err (List Val) × St)
  | [], s => some (.ok [], s)
  | x :: xs, s =>
    match unpack f x s with
    | some (.ok y, s') =>
      match unpackL f xs s' with
      | some (.ok ys, s'') => some (.ok (y :: ys), s'')
      | r => r
    | some (.error e, s') => some (.error e, s')
    | none => none
termination_by structural v => v

end

/-- The component for one prompt (174-205). -/
def mkThunk (S : Sys) (o : Op) (p : Nat) (ys : List Val) : Thunk :=
  if (S.intp p o).isSome then ⟨p, .direct, o, ys, none⟩
  else if (S.intp p .apply).isSome then ⟨p, .viaApply, o, .op (.ren p o) :: ys, none⟩
  else ⟨p, .dflt, o, ys, none⟩

/-- The loop of `product_op` (157-206). The arguments are unpacked at once; the component is delayed. -/
def productLoop (S : Sys) (E : Exec) (o : Op) (xs : List Val) :
    List Nat → Prod → St → Option (Except Err Prod × St)
  | [], acc, s => some (.ok acc, s)
  | p :: ps, acc, s =>
    match unpackL (force S E p) xs s with
    | some (.ok ys, s') => productLoop S E o xs ps (acc ++ [mkThunk S o p ys]) s'
    | some (.error e, s') => some (.error e, s')
    | none => none

/-- `product_op(op, *args)` (135-209). -/
def productOp (S : Sys) (E : Exec) (o : Op) (xs : List Val) (s : St) : Out :=
  match productLoop S E o xs S.prompts [] s with
  | some (.ok pr, s') => okOut (.prod s'.heap.length) { s' with heap := s'.heap ++ [pr] }
  | some (.error e, s') => errOut e s'
  | none => none

/-- A call of an operation (`ops/types.py` 507-526). Inside component `p`: calls of operations that are
handled by some interpretation go to the copy (122-124), which is handled by the isolated
interpretation of `p` (127-133) or else by `apply`. If `apply` is handled by another interpretation
only, then `apply` is translated to an unhandled copy, whose call calls `apply` again, for ever. -/
def callOp (S : Sys) (E : Exec) (m : Mode) (o : Op) (xs : List Val) (s : St) : Out :=
  match m with
  | .alone i =>
    match i o with
    | some h => E m (some o) (h xs) s
    | none =>
      match i .apply with
      | some h => E m (some .apply) (h (.op o :: xs)) s
      | none => defaultRule S E m o xs s
  | .comp _ p =>
    match S.intp p o with
    | some h => E m (some (.ren p o)) (h xs) s
    | none =>
      match S.intp p .apply with
      | some h =>
        E m (some (.ren p .apply)) (h (.op (if S.handled o then .ren p o else o) :: xs)) s
      | none =>
        if S.handled .apply then errOut .recursion s
        else if S.handled o then okOut (.term (.ren p o) xs) s
        else defaultRule S E m o xs s
  | .top =>
    if S.handled o then productOp S E o xs s
    else if S.handled .apply then productOp S E .apply (.op o :: xs) s
    else defaultRule S E m o xs s

/-- `argsof(p)` inside a product (146-150, 208): for a component computed by `apply`, the arguments
after the second one. -/
def argsOf (p : Nat) (pr : Prod) : Res :=
  match findThunk p pr with
  | none => .error .key
  | some t =>
    match t.kind with
    | .viaApply => .ok (.tup (t.args.drop 2))
    | _ => .ok (.tup t.args)

/-- Sequencing. -/
def andThen {α β : Type} (x : Option (α × St)) (k : α → St → Option (β × St)) : Option (β × St) :=
  match x with
  | none => none
  | some (a, s) => k a s

/-- Execution of a body. `fw` is the operation whose default rule `fwd` runs
(`ops/types.py` 513-521). -/
def exec (S : Sys) : Nat → Exec
  | 0, _, _, _, _ => none
  | _ + 1, _, _, .ret v, s => okOut v s
  | _ + 1, _, _, .raise e, s => errOut e s
  | n + 1, m, fw, .tick i k, s => exec S n m fw k { s with log := s.log ++ [i] }
  | n + 1, m, fw, .call o xs k, s =>
    andThen (callOp S (exec S n) m o xs s) (fun r => exec S n m fw (k r))
  | n + 1, m, fw, .fwd xs k, s =>
    match fw with
    | none => exec S n m fw (k (.error .runtime)) s
    | some o =>
      andThen (defaultRule S (exec S n) m o xs s) (fun r => exec S n m fw (k r))
  | n + 1, m, fw, .need p k, s =>
    match m with
    | .comp r _ =>
      andThen (force S (exec S n) p r s) (fun x => exec S n m fw (k x))
    | _ => exec S n m fw (k (.error .runtime)) s
  | n + 1, m, fw, .argsof p k, s =>
    match m with
    | .comp r _ =>
      match s.heap[r]? with
      | some pr => exec S n m fw (k (argsOf p pr)) s
      | none => exec S n m fw (k (.error .runtime)) s
    | _ => exec S n m fw (k (.error .runtime)) s

/-- Terms to be evaluated. -/
inductive Tm where
  | lit (v : Val)
  | tup (ts : List Tm)
  | app (o : Op) (ts : List Tm)

mutual

/-- `evaluate(t)` (`ops/semantics.py` 118-226). -/
def eval (S : Sys) (n : Nat) (m : Mode) : Tm → St → Out
  | .lit v, s => okOut v s
  | .tup ts, s =>
    match evals S n m ts s with
    | some (.ok vs, s') => okOut (.tup vs) s'
    | some (.error e, s') => errOut e s'
    | none => none
  | .app o ts, s =>
    match evals S n m ts s with
    | some (.ok vs, s') => callOp S (exec S n) m o vs s'
    | some (.error e, s') => errOut e s'
    | none => none
termination_by structural t => t

def evals (S : Sys) (n : Nat) (m : Mode) : List Tm → St → Option (Except Err (List Val) × St)
  | [], s => some (.ok [], s)
  | t :: ts, s =>
    match eval S n m t s with
    | some (.ok v, s') =>
      match evals S n m ts s' with
      | some (.ok vs, s'') => some (.ok (v :: vs), s'')
      | r => r
    | some (.error e, s') => some (.error e, s')
    | none => none
termination_by structural t => t

end

/-- Evaluation of `t` under `interpreter(productN(…))`, then the projection of component `p` with
`_unpack`. -/
def evalProduct (S : Sys) (n : Nat) (p : Nat) (t : Tm) (s : St) : Out :=
  match eval S n .top t s with
  | some (.ok v, s') => unpack (force S (exec S n) p) v s'
  | r => r

/-- Evaluation of `t` under `interpreter(i_p)`. -/
def evalAlone (S : Sys) (n : Nat) (p : Nat) (t : Tm) (s : St) : Out :=
  eval S n (.alone (S.intp p)) t s

end Verif.Product
