/-!
# Model of the effectful runtime

Models `effectful/internals/runtime.py` (whole file), `effectful/ops/semantics.py`
20-115 (`apply`, `fwd`, `coproduct`, `handler`) and `effectful/ops/types.py`
361-374, 507-578 (`__default_rule__`, `Operation.__call__`, `__init_subclass__`,
`__apply__`).

Simplifications common to the file:
* keyword arguments are not separated from positional ones: an argument list is a
  `List Val`.  The modelled code only passes argument lists on and tests them for
  emptiness (`a or k`).
* values are first order: integers, operations, tuples, terms.
* user code (handler bodies, operation defaults, the bodies of `with` blocks) is a
  tree `Prog`; it may perform arbitrary effects on a world `W`, call operations,
  install interpretations and catch exceptions.
-/

namespace Verif.Runtime

/-- Classes of operations: `Operation` itself and its subclasses
(`ops/types.py` 67, 528-543).  A subclass is given by a name and its parent. -/
inductive Cls where
  | base
  | sub (name : Nat) (parent : Cls)
deriving DecidableEq, Repr

/-- The operations a user can handle: the `__apply__` operation of each class
(`ops/types.py` 534-543, 578) and user-defined operations (class and identity). -/
inductive UOp where
  | apply (c : Cls)
  | user (c : Cls) (n : Nat)
deriving DecidableEq, Repr

/-- All operations: `fwd` (`ops/semantics.py` 23-36), `_get_args`
(`internals/runtime.py` 36-38) and the user-handleable ones.
Simplification: users do not handle `fwd` and `_get_args` themselves. -/
inductive Op where
  | fwd
  | getArgs
  | usr (u : UOp)
deriving DecidableEq, Repr

/-- First-order values. `tup` is the value of `_get_args()`; `term o xs` is what
`defdata(o, *xs)` returns (`ops/syntax.py` 429-549; binding is modelled in
`Verif.Terms`). -/
inductive Val where
  | int (n : Int)
  | op (o : Op)
  | tup (xs : List Val)
  | term (o : Op) (xs : List Val)

/-- Exceptions: `NotHandled` (`ops/types.py` 18), the `RuntimeError` of `fwd`,
`TypeError` for calls with a wrong number of arguments, and user exceptions. -/
inductive Exc where
  | notHandled
  | runtimeError
  | typeError
  | user (n : Nat)
deriving DecidableEq, Repr

/-- Outcome of running Python code: a value or an exception. -/
abbrev Out := Except Exc Val

/-- Classes `type(op)`: `fwd`, `_get_args` and all `__apply__` operations are
instances of `Operation` itself (`ops/types.py` 534: `define` is a classmethod called
on an instance of `Operation`). -/
def Op.cls : Op → Cls
  | .fwd => .base
  | .getArgs => .base
  | .usr (.apply _) => .base
  | .usr (.user c _) => c

mutual

/-- A user function: whether `inspect.signature(fn).parameters` is empty
(`internals/runtime.py` 42-44, 57-59), and its body. -/
inductive Fn (W : Type) : Type where
  | mk (nullary : Bool) (body : List Val → Prog W)

/-- Expressions for interpretations: the empty dict, a dict with one more entry
(`{**i, o: f}`), `coproduct(a, b)`. -/
inductive IExpr (W : Type) : Type where
  | nil
  | bind (i : IExpr W) (o : UOp) (f : Fn W)
  | coprod (a b : IExpr W)

/-- User programs.  Continuations receive the outcome, so `try/except/finally` around
a call or a `with` block is expressible. -/
inductive Prog (W : Type) : Type where
  | ret (v : Val)
  | raise (e : Exc)
  | eff (f : W → W × Val) (k : Val → Prog W)
  | call (o : UOp) (args : List Val) (k : Except Exc Val → Prog W)
  | fwd (args : List Val) (k : Except Exc Val → Prog W)
  | handle (i : IExpr W) (p : Prog W) (k : Except Exc Val → Prog W)
  | interp (i : IExpr W) (p : Prog W) (k : Except Exc Val → Prog W)

end

variable {W : Type}

/-- `not inspect.signature(fn).parameters` for a user function. -/
def Fn.nullary : Fn W → Bool
  | .mk n _ => n

/-- The body of a user function. -/
def Fn.body : Fn W → List Val → Prog W
  | .mk _ b => b

/-- The callables stored in the runtime's interpretation. -/
inductive Clo (W : Type) : Type where
  /-- a user function -/
  | fn (f : Fn W)
  /-- the bound method `o.__default_rule__` (`ops/types.py` 361-374) -/
  | dflt (o : Op)
  /-- `lambda: (a, k)` (`internals/runtime.py` 63) -/
  | const (a : List Val)
  /-- the wrapper returned by `_save_args(c)` (`internals/runtime.py` 61-66) -/
  | save (c : Clo W)
  /-- the wrapper returned by `_restore_args(c)` (`internals/runtime.py` 46-51) -/
  | restore (c : Clo W)
  /-- the wrapper returned by `_set_prompt(fwd, cont, body)` (`internals/runtime.py` 74-80) -/
  | prompt (cont body : Clo W)
  /-- `handler({fwd: d})(c)` (`internals/runtime.py` 77) -/
  | withFwd (d c : Clo W)

/-- `not inspect.signature(c).parameters`.  `functools.wraps` makes a wrapper report
the signature of what it wraps (`_set_prompt` wraps `body`; `ContextDecorator` wraps
the decorated function); `__default_rule__` has signature `(*args, **kwargs)`. -/
def Clo.nullary : Clo W → Bool
  | .fn f => f.nullary
  | .dflt _ => false
  | .const _ => true
  | .save c => c.nullary
  | .restore c => c.nullary
  | .prompt _ b => b.nullary
  | .withFwd _ c => c.nullary

/-- `_save_args(fn)` (`internals/runtime.py` 54-66). -/
def saveArgs (c : Clo W) : Clo W := if c.nullary then c else .save c

/-- `_restore_args(fn)` (`internals/runtime.py` 41-51). -/
def restoreArgs (c : Clo W) : Clo W := if c.nullary then c else .restore c

/-- An interpretation as a Python dict: keys in insertion order. -/
abbrev Intp (W : Type) := List (Op × Clo W)

/-- `d.get(o)`. -/
def Intp.get : Intp W → Op → Option (Clo W)
  | [], _ => none
  | (o', c) :: i, o => if o' = o then some c else Intp.get i o

/-- `d[o] = c`: replaces in place, or appends. -/
def Intp.set : Intp W → Op → Clo W → Intp W
  | [], o, c => [(o, c)]
  | (o', c') :: i, o, c => if o' = o then (o', c) :: i else (o', c') :: Intp.set i o c

/-- One iteration of the loop of `coproduct` (`ops/semantics.py` 91-101): `intp` is the
left interpretation, `res` the dict being built. -/
def coproductStep (intp res : Intp W) (e : Op × Clo W) : Intp W :=
  if e.1 = .fwd ∨ e.1 = .getArgs then
    res.set e.1 e.2
  else
    match intp.get e.1 with
    | some i1 => res.set e.1 (.prompt (restoreArgs (saveArgs i1)) (saveArgs e.2))
    | none => res.set e.1 (saveArgs e.2)

/-- `coproduct(intp, intp2)` (`ops/semantics.py` 39-103). -/
def coproduct (intp intp2 : Intp W) : Intp W :=
  intp2.foldl (coproductStep intp) intp

/-- The dict denoted by an interpretation expression. -/
def IExpr.compile : IExpr W → Intp W
  | .nil => []
  | .bind i o f => (i.compile).set (.usr o) (.fn f)
  | .coprod a b => coproduct a.compile b.compile

/-- The state of a thread: `get_runtime().interpretation` and the outside world. -/
structure St (W : Type) where
  intp : Intp W
  world : W

/-- The defaults of user operations (`op.__default__`), given by class and identity. -/
abbrev Defaults (W : Type) := Cls → Nat → List Val → Prog W

/-- Things that can be run. -/
inductive Task (W : Type) : Type where
  | prog (p : Prog W)
  /-- call a closure -/
  | clo (c : Clo W) (args : List Val)
  /-- `o(*args)`, i.e. `Operation.__call__` -/
  | op (o : Op) (args : List Val)
  /-- `o.__default_rule__(*args)` -/
  | dfltRule (o : Op) (args : List Val)
  /-- `o.__default__(*args)` -/
  | dfltRaw (o : Op) (args : List Val)

/-- The test `args and isinstance(args[0], Operation) and self is args[0].__apply__`
(`ops/types.py` 522). -/
def isSelfApply (o : Op) (args : List Val) : Bool :=
  match args with
  | .op o' :: _ => o = .usr (.apply o'.cls)
  | _ => false

/-- The parameters `(op, *args)` of `__apply__` (`ops/types.py` 546). -/
def splitOp : List Val → Option (Op × List Val)
  | .op o :: rest => some (o, rest)
  | _ => none

/-- `with interpreter(j): …` (`internals/runtime.py` 25-33): set the interpretation, run,
and restore the old interpretation in the `finally` clause. -/
def withInterp (run : St W → Option (Out × St W)) (j : Intp W) (s : St W) :
    Option (Out × St W) :=
  match run { s with intp := j } with
  | none => none
  | some (r, s') => some (r, { s' with intp := s.intp })

/-- Runs a task; `none` means that the fuel was not enough. -/
def run (Δ : Defaults W) : Nat → Task W → St W → Option (Out × St W)
  | 0, _, _ => none
  -- user programs
  | _ + 1, .prog (.ret v), s => some (.ok v, s)
  | _ + 1, .prog (.raise e), s => some (.error e, s)
  | n + 1, .prog (.eff f k), s =>
      run Δ n (.prog (k (f s.world).2)) { s with world := (f s.world).1 }
  | n + 1, .prog (.call o args k), s =>
      match run Δ n (.op (.usr o) args) s with
      | none => none
      | some (r, s') => run Δ n (.prog (k r)) s'
  | n + 1, .prog (.fwd args k), s =>
      match run Δ n (.op .fwd args) s with
      | none => none
      | some (r, s') => run Δ n (.prog (k r)) s'
  -- `with handler(i): p` (`ops/semantics.py` 106-115)
  | n + 1, .prog (.handle i p k), s =>
      match withInterp (run Δ n (.prog p)) (coproduct s.intp i.compile) s with
      | none => none
      | some (r, s') => run Δ n (.prog (k r)) s'
  -- `with interpreter(i): p`, also `evaluate(…, intp=i)` (`ops/semantics.py` 145-146)
  | n + 1, .prog (.interp i p k), s =>
      match withInterp (run Δ n (.prog p)) i.compile s with
      | none => none
      | some (r, s') => run Δ n (.prog (k r)) s'
  -- calls of closures
  | n + 1, .clo (.fn f) args, s =>
      if f.nullary && !args.isEmpty then some (.error .typeError, s)
      else run Δ n (.prog (f.body args)) s
  | n + 1, .clo (.dflt o) args, s => run Δ n (.dfltRule o args) s
  | _ + 1, .clo (.const a) args, s =>
      if args.isEmpty then some (.ok (.tup a), s) else some (.error .typeError, s)
  -- `internals/runtime.py` 63-64
  | n + 1, .clo (.save c) args, s =>
      withInterp (run Δ n (.clo c args)) (coproduct s.intp [(.getArgs, .const args)]) s
  -- `internals/runtime.py` 48-49
  | n + 1, .clo (.restore c) args, s =>
      if args.isEmpty then
        match run Δ n (.op .getArgs []) s with
        | none => none
        | some (.ok (.tup a), s') => run Δ n (.clo c a) s'
        | some (.ok _, s') => some (.error .typeError, s')
        | some (.error e, s') => some (.error e, s')
      else run Δ n (.clo c args) s
  -- `internals/runtime.py` 76-78
  | n + 1, .clo (.prompt cont body) args, s =>
      withInterp (run Δ n (.clo body args))
        (coproduct s.intp [(.fwd, .withFwd ((s.intp.get .fwd).getD (.dflt .fwd)) cont)]) s
  | n + 1, .clo (.withFwd d c) args, s =>
      withInterp (run Δ n (.clo c args)) (coproduct s.intp [(.fwd, d)]) s
  -- `Operation.__call__` (`ops/types.py` 507-526)
  | n + 1, .op o args, s =>
      match s.intp.get o with
      | some h =>
          withInterp (run Δ n (.clo h args))
            (coproduct s.intp [(.fwd, restoreArgs (.dflt o))]) s
      | none =>
          if isSelfApply o args then run Δ n (.dfltRaw o args) s
          else run Δ n (.op (.usr (.apply o.cls)) (.op o :: args)) s
  -- `__default_rule__` (`ops/types.py` 361-374)
  | n + 1, .dfltRule o args, s =>
      match run Δ n (.dfltRaw o args) s with
      | none => none
      | some (.error .notHandled, s') => some (.ok (.term o args), s')
      | some (r, s') => some (r, s')
  -- the defaults: `fwd` raises (`ops/semantics.py` 36), `_get_args` returns `((), {})`
  -- (`internals/runtime.py` 38), `Operation.__apply__` calls the default rule of its first
  -- argument (`ops/types.py` 575), the `__apply__` of a subclass calls its parent's
  -- (`ops/types.py` 534-543)
  | _ + 1, .dfltRaw .fwd _, s => some (.error .runtimeError, s)
  | _ + 1, .dfltRaw .getArgs args, s =>
      if args.isEmpty then some (.ok (.tup []), s) else some (.error .typeError, s)
  | n + 1, .dfltRaw (.usr (.apply .base)) args, s =>
      match splitOp args with
      | some (o, rest) => run Δ n (.dfltRule o rest) s
      | none => some (.error .typeError, s)
  | n + 1, .dfltRaw (.usr (.apply (.sub _ p))) args, s =>
      run Δ n (.op (.usr (.apply p)) args) s
  | n + 1, .dfltRaw (.usr (.user c m)) args, s => run Δ n (.prog (Δ c m args)) s

/-- Program `p` started in state `s` ends with outcome `r` in state `s'`. -/
def Runs (Δ : Defaults W) (t : Task W) (s : St W) (r : Out) (s' : St W) : Prop :=
  ∃ n, run Δ n t s = some (r, s')

end Verif.Runtime
