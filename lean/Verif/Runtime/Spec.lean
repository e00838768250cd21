import Verif.Runtime.Model

/-!
# Specification: handler stacks

An abstract machine for operations and handlers.  It keeps, for each operation, an
explicit stack of user functions (innermost first).  There are no prompts, wrappers or
mutable interpretations: the context is a reader environment, so scoping of `with` blocks
holds by construction.
-/

namespace Verif.Runtime

variable {W : Type}

/-- The handlers of one operation, innermost first.  `raw` marks a handler that was
installed by `interpreter` without `handler`/`coproduct` (its calls do not record the
current arguments). -/
structure Entry (W : Type) where
  raw : Bool
  top : Fn W
  rest : List (Fn W)

/-- Which handlers each operation has. -/
abbrev Env (W : Type) := UOp → Option (Entry W)

/-- Put the handlers `new` of an operation in front of the handlers `old`. -/
def stackOver (old new : Option (Entry W)) : Option (Entry W) :=
  match new with
  | none => old
  | some e =>
    match old with
    | none => some ⟨false, e.top, e.rest⟩
    | some e' => some ⟨false, e.top, e.rest ++ e'.top :: e'.rest⟩

/-- The stacks denoted by an interpretation expression. -/
def IExpr.stacks : IExpr W → Env W
  | .nil, _ => none
  | .bind i o f, u => if o = u then some ⟨true, f, []⟩ else i.stacks u
  | .coprod a b, u => stackOver (a.stacks u) (b.stacks u)

/-- The rest of the chain that `fwd` continues with: handlers that remain, then the
default rule of the operation. -/
structure Kont (W : Type) where
  op : Op
  rest : List (Fn W)

/-- The dynamic context: handler stacks, where `fwd` goes, the current arguments. -/
structure Ctx (W : Type) where
  env : Env W
  kont : Option (Kont W)
  args : Option (List Val)

/-- What the abstract machine runs. -/
inductive STask (W : Type) : Type where
  | prog (p : Prog W)
  /-- call of a user-handleable operation -/
  | call (u : UOp) (args : List Val)
  /-- call of `fwd` -/
  | fwd (args : List Val)
  /-- call of an operation that has no handler -/
  | unhandled (o : Op) (args : List Val)
  /-- run handler `f` of operation `o`, with `rest` remaining; `saving` says whether the
  arguments become the current ones -/
  | enter (o : Op) (saving : Bool) (f : Fn W) (rest : List (Fn W)) (args : List Val)
  /-- the arguments that `fwd(*args)` forwards, as a tuple -/
  | implicit (args : List Val)
  /-- the default rule: the default, or the term if the default declines -/
  | dflt (o : Op) (args : List Val)
  /-- the default itself -/
  | dfltRaw (o : Op) (args : List Val)

/-- Big-step semantics of the abstract machine. -/
inductive SRun (Δ : Defaults W) : Ctx W → STask W → W → Out → W → Prop where
  | ret {Γ v w} : SRun Δ Γ (.prog (.ret v)) w (.ok v) w
  | raise {Γ e w} : SRun Δ Γ (.prog (.raise e)) w (.error e) w
  | eff {Γ f k w r w'} :
      SRun Δ Γ (.prog (k (f w).2)) (f w).1 r w' → SRun Δ Γ (.prog (.eff f k)) w r w'
  | call {Γ u args k w r w' r' w''} :
      SRun Δ Γ (.call u args) w r w' → SRun Δ Γ (.prog (k r)) w' r' w'' →
      SRun Δ Γ (.prog (.call u args k)) w r' w''
  | fwd {Γ args k w r w' r' w''} :
      SRun Δ Γ (.fwd args) w r w' → SRun Δ Γ (.prog (k r)) w' r' w'' →
      SRun Δ Γ (.prog (.fwd args k)) w r' w''
  /-- `with handler(i): p`: the new handlers go on top of the stacks -/
  | handle {Γ i p k w r w' r' w''} :
      SRun Δ { Γ with env := fun u => stackOver (Γ.env u) (i.stacks u) } (.prog p) w r w' →
      SRun Δ Γ (.prog (k r)) w' r' w'' →
      SRun Δ Γ (.prog (.handle i p k)) w r' w''
  /-- `with interpreter(i): p`: only the new handlers, no chain, no current arguments -/
  | interp {Γ i p k w r w' r' w''} :
      SRun Δ ⟨i.stacks, none, none⟩ (.prog p) w r w' →
      SRun Δ Γ (.prog (k r)) w' r' w'' →
      SRun Δ Γ (.prog (.interp i p k)) w r' w''
  /-- calling a handled operation runs its innermost handler -/
  | handled {Γ u args e w r w'} :
      Γ.env u = some e →
      SRun Δ Γ (.enter (.usr u) (!e.raw) e.top e.rest args) w r w' →
      SRun Δ Γ (.call u args) w r w'
  | free {Γ u args w r w'} :
      Γ.env u = none →
      SRun Δ Γ (.unhandled (.usr u) args) w r w' → SRun Δ Γ (.call u args) w r w'
  /-- running a handler: `fwd` now continues with the rest of the chain -/
  | enter {Γ o saving f rest args w r w'} :
      (f.nullary = true → args = []) →
      SRun Δ { Γ with
               kont := some ⟨o, rest⟩
               args := if saving && !f.nullary then some args else Γ.args }
        (.prog (f.body args)) w r w' →
      SRun Δ Γ (.enter o saving f rest args) w r w'
  | enterBad {Γ o saving f rest args w} :
      f.nullary = true → args ≠ [] →
      SRun Δ Γ (.enter o saving f rest args) w (.error .typeError) w
  /-- the arguments forwarded by `fwd`: those given; otherwise the current ones; outside any
  recording handler whatever the (then unhandled) `_get_args()` gives -/
  | implGiven {Γ args w} : args ≠ [] → SRun Δ Γ (.implicit args) w (.ok (.tup args)) w
  | implCurrent {Γ a w} : Γ.args = some a → SRun Δ Γ (.implicit []) w (.ok (.tup a)) w
  | implNone {Γ w} : Γ.args = none → Γ.env (.apply .base) = none →
      SRun Δ Γ (.implicit []) w (.ok (.tup [])) w
  | implAsked {Γ e w r w'} : Γ.args = none → Γ.env (.apply .base) = some e →
      SRun Δ Γ (.enter (.usr (.apply .base)) (!e.raw) e.top e.rest [.op .getArgs]) w r w' →
      SRun Δ Γ (.implicit []) w r w'
  /-- `fwd` to the next handler; a handler without parameters gets what was given -/
  | fwdNullary {Γ args o f rest w r w'} :
      Γ.kont = some ⟨o, f :: rest⟩ → f.nullary = true →
      SRun Δ Γ (.enter o true f rest args) w r w' →
      SRun Δ Γ (.fwd args) w r w'
  | fwdNext {Γ args o f rest a w w' r w''} :
      Γ.kont = some ⟨o, f :: rest⟩ → f.nullary = false →
      SRun Δ Γ (.implicit args) w (.ok (.tup a)) w' →
      SRun Δ Γ (.enter o true f rest a) w' r w'' →
      SRun Δ Γ (.fwd args) w r w''
  /-- `fwd` at the end of the chain: the default rule of the operation -/
  | fwdEnd {Γ args o a w w' r w''} :
      Γ.kont = some ⟨o, []⟩ →
      SRun Δ Γ (.implicit args) w (.ok (.tup a)) w' →
      SRun Δ { Γ with kont := some ⟨.fwd, []⟩ } (.dflt o a) w' r w'' →
      SRun Δ Γ (.fwd args) w r w''
  /-- failures of determining the arguments (only with an `apply` handler) -/
  | fwdFail {Γ args k x w w'} :
      Γ.kont = some k → (∀ f rest, k.rest = f :: rest → f.nullary = false) →
      SRun Δ Γ (.implicit args) w (.error x) w' →
      SRun Δ Γ (.fwd args) w (.error x) w'
  | fwdBad {Γ args k v w w'} :
      Γ.kont = some k → (∀ f rest, k.rest = f :: rest → f.nullary = false) →
      SRun Δ Γ (.implicit args) w (.ok v) w' → (∀ a, v ≠ .tup a) →
      SRun Δ Γ (.fwd args) w (.error .typeError) w'
  /-- `fwd` with no chain is an unhandled operation -/
  | fwdFree {Γ args w r w'} :
      Γ.kont = none → SRun Δ Γ (.unhandled .fwd args) w r w' → SRun Δ Γ (.fwd args) w r w'
  /-- unhandled operations go to `apply` of their class … -/
  | unhandled {Γ o args w r w'} :
      isSelfApply o args = false →
      SRun Δ Γ (.call (.apply o.cls) (.op o :: args)) w r w' →
      SRun Δ Γ (.unhandled o args) w r w'
  /-- … and from there to the default -/
  | selfApply {Γ o args w r w'} :
      isSelfApply o args = true →
      SRun Δ Γ (.dfltRaw o args) w r w' → SRun Δ Γ (.unhandled o args) w r w'
  | dflt {Γ o args w r w'} :
      SRun Δ Γ (.dfltRaw o args) w r w' → r ≠ .error .notHandled →
      SRun Δ Γ (.dflt o args) w r w'
  | dfltTerm {Γ o args w w'} :
      SRun Δ Γ (.dfltRaw o args) w (.error .notHandled) w' →
      SRun Δ Γ (.dflt o args) w (.ok (.term o args)) w'
  | rawFwd {Γ args w} : SRun Δ Γ (.dfltRaw .fwd args) w (.error .runtimeError) w
  | rawGetArgs {Γ w} : SRun Δ Γ (.dfltRaw .getArgs []) w (.ok (.tup [])) w
  | rawGetArgsBad {Γ args w} :
      args ≠ [] → SRun Δ Γ (.dfltRaw .getArgs args) w (.error .typeError) w
  | rawApply {Γ o rest w r w'} :
      SRun Δ Γ (.dflt o rest) w r w' →
      SRun Δ Γ (.dfltRaw (.usr (.apply .base)) (.op o :: rest)) w r w'
  | rawApplyBad {Γ args w} :
      (∀ o rest, args ≠ .op o :: rest) →
      SRun Δ Γ (.dfltRaw (.usr (.apply .base)) args) w (.error .typeError) w
  | rawApplySub {Γ c p args w r w'} :
      SRun Δ Γ (.call (.apply p) args) w r w' →
      SRun Δ Γ (.dfltRaw (.usr (.apply (.sub c p))) args) w r w'
  | rawUser {Γ c m args w r w'} :
      SRun Δ Γ (.prog (Δ c m args)) w r w' →
      SRun Δ Γ (.dfltRaw (.usr (.user c m)) args) w r w'

end Verif.Runtime
