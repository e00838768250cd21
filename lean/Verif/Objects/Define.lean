import Verif.Objects.Instance

/-!
# What `Operation.define` makes of its argument

Model of `Operation.__init__`, `__signature__` (`ops/types.py` 81-108), `Operation.define` (138-359), `__default_rule__`
(361-373) and `__set_name__` (459-464). Text is a `String`. The identity of operations is the subject of
`Verif.Objects.Ops`; here an operation is its name, default rule and `__dict__`.
-/

namespace Verif.Objects.Define

/-- Exceptions. -/
inductive Err where
  | attribute
  | notImplemented
  | type
  | value
  | index
  | assertion
deriving DecidableEq

/-- An `inspect.Signature`: the names of the parameters and the number of the return annotation. Kinds, defaults and
annotations of parameters are left to `Env.binds`. -/
structure Sig where
  params : List String
  ret : Nat
deriving DecidableEq

/-- An argument: a value, its class, and whether it has free variables (`fvsof`). -/
structure Arg where
  val : Nat
  cls : Nat
  «open» : Bool
deriving DecidableEq

/-- The two lists of arguments of a call. -/
structure Args where
  pos : List Arg
  kw : List (String × Arg)
deriving DecidableEq

/-- Values in a `__dict__`: a cached signature, the `register` method of a registry, another value. -/
inductive DVal where
  | sig (s : Sig)
  | reg (r : Nat)
  | val (n : Nat)
deriving DecidableEq

/-- A `__dict__`, without the entries that `functools.update_wrapper` and `Operation.__init__` overwrite (`__name__`,
`__default__`, `__wrapped__` and the like). -/
abbrev Dict := List (String × DVal)

/-- `d[k] = v`. -/
def Dict.set (d : Dict) (k : String) (v : DVal) : Dict := (k, v) :: d.filter fun e => e.1 ≠ k

/-- `d.pop(k, None)`. -/
def Dict.pop (d : Dict) (k : String) : Dict := d.filter fun e => e.1 ≠ k

/-- What a callable does. -/
inductive Body where
  /-- the code of the user, or of a builtin -/
  | code (f : Nat)
  /-- 283-285 for operations -/
  | free
  /-- 299-300 for types: no parameters -/
  | freeNoArgs
  /-- 311-318 for builtin functions -/
  | guarded (f : Nat)
  /-- `types.MethodType(b, self)` -/
  | bound (b : Body) (self : Arg)
  /-- 338-340: the implementation that the registry has for the class of the second argument -/
  | dispatched (r : Nat)
  /-- 352-354: a function that is given the registry -/
  | custom (f r : Nat)
deriving DecidableEq

/-- A callable: `__name__`, `inspect.signature` with resolved annotations (92-108), or the error it raises, `__dict__`, and
what it does. -/
structure Fn where
  name : Option String
  sig : Except Err Sig
  dict : Dict
  body : Body

/-- An operation. -/
structure Op where
  name : String
  default : Fn
  dict : Dict

/-- `op.__signature__` (90-108): the cached property, if it is in the `__dict__`. -/
def Op.signature (o : Op) : Except Err Sig :=
  match o.dict.lookup "_signature" with
  | some (.sig s) => .ok s
  | _ => o.default.sig

/-- The operation after its signature was read: `functools.cached_property` stores it. -/
def Op.read (o : Op) : Op :=
  match o.signature with
  | .ok s => { o with dict := o.dict.set "_signature" (.sig s) }
  | .error _ => o

/-- `Operation(default, name=name)` (81-88). -/
def mk (f : Fn) (name : Option String) : Except Err Op :=
  match name with
  | some n =>
    if n = "" then
      match f.name with
      | some m => .ok ⟨m, f, f.dict.pop "_signature"⟩
      | none => .error .attribute
    else .ok ⟨n, f, f.dict.pop "_signature"⟩
  | none =>
    match f.name with
    | some m => .ok ⟨m, f, f.dict.pop "_signature"⟩
    | none => .error .attribute

/-- `inspect.signature` of a bound method. -/
def dropFirst : Except Err Sig → Except Err Sig
  | .ok s => .ok { s with params := s.params.tail }
  | .error e => .error e

/-- `functools.wraps(op)` around a function with this body. -/
def wrapsOp (o : Op) (b : Body) : Fn := ⟨some o.name, o.signature, o.dict, b⟩

/-- A bound method: attributes are those of the function. -/
def boundFn (f : Fn) (self : Arg) : Fn := ⟨f.name, dropFirst f.sig, f.dict, .bound f.body self⟩

/-- What is decorated by `functools.singledispatchmethod`. -/
inductive Wrapped where
  | plain
  | static
  | classMethod
deriving DecidableEq

/-- Arguments of `define`, by the rule that `functools.singledispatchmethod` chooses (138, 274-347). -/
inductive Src where
  /-- functions, bound methods, partials, callable instances (274-291) -/
  | callable (f : Fn)
  /-- operations (281-287) -/
  | operation (o : Op)
  /-- classes, `types.GenericAlias` and `typing._GenericAlias`; these have a `__name__` (293-304) -/
  | type (name : String) (t : Nat)
  /-- `X | Y`, which has no `__name__` (296) -/
  | union (t : Nat)
  /-- builtin functions and methods (306-320); `inspect.signature` fails for some -/
  | builtin (name : String) (sig : Except Err Sig) (f : Nat)
  | static (s : Src)
  | classMethod (f : Fn)
  /-- `functools.singledispatchmethod` with the registry `r` (332-345) -/
  | dispatchMethod (w : Wrapped) (f : Fn) (r : Nat)
  /-- `_CustomSingleDispatchCallable` (347-359) -/
  | custom (name : Option String) (sig : Except Err Sig) (dict : Dict) (f r : Nat)
  /-- type variables, strings, `None`, values (272) -/
  | other

/-- Results of `define`. -/
inductive Obj where
  | op (o : Op)
  | static (o : Obj)
  /-- `_ClassMethodOpDescriptor` (45-61) -/
  | classMethod (f : Fn)

/-- `Operation.define(s, name=name)`. -/
def define (name : Option String) : Src → Except Err Obj
  | .callable f => (mk f name).map .op
  | .operation o => (mk (wrapsOp o .free) name).map .op
  | .type n t => (mk ⟨some n, .ok ⟨[], t⟩, [], .freeNoArgs⟩ name).map .op
  | .union _ => .error .attribute
  | .builtin n sig f => (mk ⟨some n, sig, [], .guarded f⟩ name).map .op
  | .static s => (define name s).map .static
  | .classMethod f => .ok (.classMethod f)
  | .dispatchMethod .classMethod _ _ => .error .notImplemented
  | .dispatchMethod _ f r =>
    (mk ⟨some (f.name.getD "_wrapper"), f.sig, f.dict, .dispatched r⟩ name).map fun o =>
      .op { o with dict := o.dict.set "register" (.reg r) }
  | .custom n sig d f r =>
    (mk ⟨some (n.getD "func"), dropFirst sig, d, .custom f r⟩ name).map fun o =>
      .op { o with dict := o.dict.set "register" (.reg r) }
  | .other => .error .notImplemented

/-- `C.attr` for the class `c`: `_ClassMethodOpDescriptor.__get__` (54-61) defines the operation without a name. -/
def classOp (f : Fn) (c : Arg) : Except Err Obj := define none (.callable (boundFn f c))

/-! ## Calls -/

/-- How a call of code ends. -/
inductive Out where
  | ret (a : Arg)
  | notHandled
  | raised (n : Nat)
deriving DecidableEq

/-- A registered implementation. -/
structure Impl where
  fn : Nat
  static : Bool
deriving DecidableEq

/-- A registry of `functools.singledispatch`, and the implementation for `object`. -/
structure Registry where
  impls : List (Nat × Impl)
  base : Impl

/-- The registries that exist, and the code that runs: `mro` gives the classes that `singledispatch` tries, `binds` tells
whether `sig.bind` accepts. -/
structure Env where
  code : Nat → Args → Out
  customCode : Nat → (Nat → Impl) → Args → Out
  binds : Sig → Args → Bool
  mro : Nat → List Nat
  reg : Nat → Registry

/-- `dispatch(cls)`. -/
def Env.dispatch (e : Env) (r : Nat) (c : Nat) : Impl :=
  ((e.mro c).findSome? fun k => (e.reg r).impls.lookup k).getD (e.reg r).base

/-- `op.register(cls)(impl)`, for the registry in the `__dict__`. -/
def Op.register (o : Op) (c : Nat) (i : Impl) (e : Env) : Option Env :=
  match o.dict.lookup "register" with
  | some (.reg r) =>
    some { e with reg := fun r' =>
      if r' = r then { e.reg r with impls := (c, i) :: (e.reg r).impls } else e.reg r' }
  | _ => none

/-- Errors of calls. -/
inductive Res where
  | out (o : Out)
  | err (e : Err)
deriving DecidableEq

/-- `fvsof((args, kwargs))` is not empty. -/
def Args.open (a : Args) : Bool := a.pos.any (·.open) || a.kw.any (·.2.open)

/-- Call of a callable. -/
def Body.call (e : Env) : Body → Args → Res
  | .code f, a => .out (e.code f a)
  | .free, _ => .out .notHandled
  | .freeNoArgs, a => if a.pos = [] ∧ a.kw = [] then .out .notHandled else .err .type
  | .guarded f, a => if a.open then .out .notHandled else .out (e.code f a)
  | .bound b self, a => b.call e { a with pos := self :: a.pos }
  | .dispatched r, a =>
    match a.pos with
    | [] => .err .type
    | [_] => .err .index
    | obj :: x :: xs =>
      let i := e.dispatch r x.cls
      .out (e.code i.fn (if i.static then ⟨x :: xs, a.kw⟩ else ⟨obj :: x :: xs, a.kw⟩))
  | .custom f r, a => .out (e.customCode f (e.dispatch r) a)

/-- Results of a call of an operation that is not handled: a value, a term of the operation, an exception of the code, or
another exception. -/
inductive Result where
  | value (a : Arg)
  | term (o : Op) (a : Args)
  | raised (n : Nat)
  | err (e : Err)

/-- `defdata(op, *args, **kwargs)`: it reads the signature and binds the arguments (`__fvs_rule__` 433). -/
def node (e : Env) (o : Op) (a : Args) : Result :=
  match o.signature with
  | .error x => .err x
  | .ok s => if e.binds s a then .term o a else .err .type

/-- `__default_rule__` (361-373). -/
def Op.call (e : Env) (o : Op) (a : Args) : Result :=
  match o.default.body.call e a with
  | .err x => .err x
  | .out (.ret v) => .value v
  | .out (.raised n) => .raised n
  | .out .notHandled => node e o a

/-! ## Names -/

/-- The `__name__` of an argument of `define`. -/
def Src.name : Src → Option String
  | .callable f => f.name
  | .operation o => some o.name
  | .type n _ => some n
  | .builtin n _ _ => some n
  | .static s => s.name
  | .classMethod f => f.name
  | .dispatchMethod _ f _ => f.name
  | .custom n _ _ _ _ => n
  | .union _ | .other => none

/-- The operation inside static methods. -/
def Obj.op? : Obj → Option Op
  | .op o => some o
  | .static o => o.op?
  | .classMethod _ => none

theorem mk_name {f : Fn} {name : Option String} {o : Op} (h : mk f name = .ok o) :
    (∀ n, name = some n → n ≠ "" → o.name = n) ∧ ((name = none ∨ name = some "") → f.name = some o.name) ∧
      o.default = f ∧ o.dict = f.dict.pop "_signature" := by
  unfold mk at h
  split at h
  · split at h
    · rename_i hn
      split at h
      · rename_i hm
        cases h
        exact ⟨fun n e hne => absurd (Option.some.inj e ▸ hn) hne, fun _ => hm, rfl, rfl⟩
      · cases h
    · rename_i hn
      cases h
      refine ⟨fun n e _ => Option.some.inj e, ?_, rfl, rfl⟩
      rintro (h | h)
      · cases h
      · exact absurd (Option.some.inj h) hn
  · split at h
    · rename_i hm
      cases h
      exact ⟨fun n e => (nomatch e), fun _ => hm, rfl, rfl⟩
    · cases h

theorem map_ok {α β ε : Type} {f : α → β} {x : Except ε α} {b : β} (h : x.map f = .ok b) :
    ∃ a, x = .ok a ∧ f a = b := by
  cases x with
  | error e => cases h
  | ok a => cases h; exact ⟨a, rfl, rfl⟩

/-- **C86.** The operation has the name that is given, or else that of the argument, also within static methods. -/
theorem C86_name (name : Option String) (s : Src) (r : Obj) (o : Op) (h : define name s = .ok r) (ho : r.op? = some o) :
    (∀ n, name = some n → n ≠ "" → o.name = n) ∧
    ((name = none ∨ name = some "") → ∀ m, s.name = some m → o.name = m) := by
  induction s generalizing r with
  | static s ih =>
    obtain ⟨r', hr, rfl⟩ := map_ok h
    exact ih r' hr ho
  | union _ => cases h
  | other => cases h
  | classMethod f => cases h; cases ho
  | dispatchMethod w f q =>
    have h' : ∃ o', mk ⟨some (f.name.getD "_wrapper"), f.sig, f.dict, .dispatched q⟩ name = .ok o' ∧
        Obj.op { o' with dict := o'.dict.set "register" (.reg q) } = r := by
      cases w with
      | classMethod => cases h
      | plain => exact map_ok h
      | static => exact map_ok h
    obtain ⟨o', hm, rfl⟩ := h'
    cases ho
    refine ⟨(mk_name hm).1, fun hn m e => ?_⟩
    have := (mk_name hm).2.1 hn
    simp only [Src.name] at e
    simp only [e, Option.getD_some, Option.some.injEq] at this
    exact this.symm
  | custom n sig d f q =>
    obtain ⟨o', hm, rfl⟩ := map_ok h
    cases ho
    refine ⟨(mk_name hm).1, fun hn m e => ?_⟩
    have := (mk_name hm).2.1 hn
    simp only [Src.name] at e
    simp only [e, Option.getD_some, Option.some.injEq] at this
    exact this.symm
  | callable f =>
    obtain ⟨o', hm, rfl⟩ := map_ok h
    cases ho
    exact ⟨(mk_name hm).1, fun hn m e => Option.some.inj (((mk_name hm).2.1 hn).symm.trans e)⟩
  | operation p =>
    obtain ⟨o', hm, rfl⟩ := map_ok h
    cases ho
    exact ⟨(mk_name hm).1, fun hn m e => Option.some.inj (((mk_name hm).2.1 hn).symm.trans e)⟩
  | type n t =>
    obtain ⟨o', hm, rfl⟩ := map_ok h
    cases ho
    exact ⟨(mk_name hm).1, fun hn m e => Option.some.inj (((mk_name hm).2.1 hn).symm.trans e)⟩
  | builtin n sig f =>
    obtain ⟨o', hm, rfl⟩ := map_ok h
    cases ho
    exact ⟨(mk_name hm).1, fun hn m e => Option.some.inj (((mk_name hm).2.1 hn).symm.trans e)⟩

theorem mk_ok (f : Fn) (name : Option String) (h : f.name ≠ none ∨ ∃ n, name = some n ∧ n ≠ "") :
    ∃ o, mk f name = .ok o := by
  unfold mk
  cases name with
  | some n =>
    by_cases hn : n = ""
    · cases hf : f.name with
      | some m => exact ⟨⟨m, f, f.dict.pop "_signature"⟩, by simp only [hn, if_true]⟩
      | none =>
        rcases h with h | ⟨n', e, hne⟩
        · exact absurd hf h
        · exact absurd (Option.some.inj e ▸ hn) hne
    · exact ⟨⟨n, f, f.dict.pop "_signature"⟩, by simp only [hn, if_false]⟩
  | none =>
    cases hf : f.name with
    | some m => exact ⟨_, rfl⟩
    | none =>
      rcases h with h | ⟨n', e, _⟩
      · exact absurd hf h
      · cases e

/-- The arguments that are accepted: all that have a name or get one, but unions, single-dispatch class methods and
values. -/
def Accepted (name : Option String) : Src → Prop
  | .callable f => f.name ≠ none ∨ ∃ n, name = some n ∧ n ≠ ""
  | .union _ | .other => False
  | .dispatchMethod w _ _ => w ≠ .classMethod
  | .static s => Accepted name s
  | _ => True

/-- **C86.** `define` succeeds exactly for the arguments that are accepted. -/
theorem C86_accepts (name : Option String) (s : Src) : (∃ r, define name s = .ok r) ↔ Accepted name s := by
  have key : ∀ (f : Fn) (g : Op → Obj), f.name ≠ none → ∃ r, (mk f name).map g = .ok r := fun f g hf => by
    obtain ⟨o, ho⟩ := mk_ok f name (Or.inl hf)
    exact ⟨g o, by rw [ho]; rfl⟩
  induction s with
  | callable f =>
    constructor
    · rintro ⟨r, h⟩
      obtain ⟨o, hm, -⟩ := map_ok h
      simp only [Accepted]
      cases name with
      | none => exact Or.inl fun e => by have := (mk_name hm).2.1 (Or.inl rfl); rw [e] at this; cases this
      | some n =>
        by_cases hn : n = ""
        · exact Or.inl fun e => by
            have := (mk_name hm).2.1 (Or.inr (by rw [hn])); rw [e] at this; cases this
        · exact Or.inr ⟨n, rfl, hn⟩
    · intro h
      obtain ⟨o, ho⟩ := mk_ok f name h
      exact ⟨.op o, by simp only [define, ho]; rfl⟩
  | operation o => exact ⟨fun _ => trivial, fun _ => key _ _ (fun e => nomatch e)⟩
  | type n t => exact ⟨fun _ => trivial, fun _ => key _ _ (fun e => nomatch e)⟩
  | builtin n sig f => exact ⟨fun _ => trivial, fun _ => key _ _ (fun e => nomatch e)⟩
  | custom n sig d f q => exact ⟨fun _ => trivial, fun _ => key _ _ (fun e => nomatch e)⟩
  | union t => exact ⟨fun ⟨r, h⟩ => (nomatch h), fun h => h.elim⟩
  | other => exact ⟨fun ⟨r, h⟩ => (nomatch h), fun h => h.elim⟩
  | classMethod f => exact ⟨fun _ => trivial, fun _ => ⟨_, rfl⟩⟩
  | dispatchMethod w f q =>
    cases w with
    | classMethod => exact ⟨fun ⟨r, h⟩ => (nomatch h), fun h => absurd rfl h⟩
    | plain => exact ⟨fun _ h => (nomatch h), fun _ => key _ _ (fun e => nomatch e)⟩
    | static => exact ⟨fun _ h => (nomatch h), fun _ => key _ _ (fun e => nomatch e)⟩
  | static s ih =>
    constructor
    · rintro ⟨r, h⟩
      obtain ⟨r', hr, -⟩ := map_ok h
      exact ih.1 ⟨r', hr⟩
    · intro h
      obtain ⟨r, hr⟩ := ih.2 h
      exact ⟨.static r, by simp only [define, hr]; rfl⟩

/-! ## Attributes -/

theorem lookup_filter_ne (d : Dict) (k x : String) (h : x ≠ k) :
    (d.filter fun e => e.1 ≠ k).lookup x = d.lookup x := by
  induction d with
  | nil => rfl
  | cons e d ih =>
    obtain ⟨a, v⟩ := e
    by_cases ha : a = k
    · have hx : (x == a) = false := by simp [ha, h]
      simp only [ne_eq, ha, not_true_eq_false, decide_false, Bool.false_eq_true, not_false_eq_true,
        List.filter_cons_of_neg, List.lookup_cons]
      rw [ha] at hx
      simpa [hx] using ih
    · simp only [ne_eq, ha, not_false_eq_true, decide_true, List.filter_cons_of_pos, List.lookup_cons]
      simp only [ne_eq] at ih
      rw [ih]

theorem lookup_filter_self (d : Dict) (k : String) : (d.filter fun e => e.1 ≠ k).lookup k = none := by
  induction d with
  | nil => rfl
  | cons e d ih =>
    obtain ⟨a, v⟩ := e
    by_cases ha : a = k
    · simpa [List.filter_cons, ha] using ih
    · have hx : (k == a) = false := by simp [Ne.symm ha]
      simp only [ne_eq, ha, not_false_eq_true, decide_true, List.filter_cons_of_pos, List.lookup_cons, hx]
      simpa using ih

theorem pop_lookup (d : Dict) (k x : String) (h : x ≠ k) : (d.pop k).lookup x = d.lookup x := lookup_filter_ne d k x h

theorem pop_self (d : Dict) (k : String) : (d.pop k).lookup k = none := lookup_filter_self d k

theorem set_lookup (d : Dict) (k x : String) (v : DVal) (h : x ≠ k) : (d.set k v).lookup x = d.lookup x := by
  have hx : (x == k) = false := by simp [h]
  simp only [Dict.set, List.lookup_cons, hx]
  exact lookup_filter_ne d k x h

theorem set_self (d : Dict) (k : String) (v : DVal) : (d.set k v).lookup k = some v := by
  simp [Dict.set]

/-- **C86.** The operation has the attributes of the function or operation that it is made of. -/
theorem C86_attributes (name : Option String) (o : Op) (k : String) (hk : k ≠ "_signature") :
    (∀ f, define name (.callable f) = .ok (.op o) → o.dict.lookup k = f.dict.lookup k) ∧
    (∀ p, define name (.operation p) = .ok (.op o) → o.dict.lookup k = p.dict.lookup k) ∧
    (∀ w f r, define name (.dispatchMethod w f r) = .ok (.op o) →
      o.dict.lookup k = if k = "register" then some (.reg r) else f.dict.lookup k) := by
  refine ⟨fun f h => ?_, fun p h => ?_, fun w f r h => ?_⟩
  · obtain ⟨o', hm, e⟩ := map_ok h
    cases e
    rw [(mk_name hm).2.2.2]
    exact pop_lookup _ _ _ hk
  · obtain ⟨o', hm, e⟩ := map_ok h
    cases e
    rw [(mk_name hm).2.2.2]
    exact pop_lookup _ _ _ hk
  · have h' : ∃ o', mk ⟨some (f.name.getD "_wrapper"), f.sig, f.dict, .dispatched r⟩ name = .ok o' ∧
        Obj.op { o' with dict := o'.dict.set "register" (.reg r) } = .op o := by
      cases w with
      | classMethod => cases h
      | plain => exact map_ok h
      | static => exact map_ok h
    obtain ⟨o', hm, e⟩ := h'
    cases e
    by_cases hr : k = "register"
    · simp only [hr, if_true]
      exact set_self _ _ _
    · simp only [hr, if_false]
      rw [set_lookup _ _ _ _ hr, (mk_name hm).2.2.2]
      exact pop_lookup _ _ _ hk

/-! ## Signatures -/

theorem mk_signature {f : Fn} {name : Option String} {o : Op} (h : mk f name = .ok o) : o.signature = f.sig := by
  obtain ⟨-, -, hd, hc⟩ := mk_name h
  simp only [Op.signature, hc, pop_self, hd]

/-- Reading a signature does not change it. -/
theorem read_signature (o : Op) : o.read.signature = o.signature := by
  unfold Op.read
  cases h : o.signature with
  | error e => exact h
  | ok s => simp only [Op.signature, set_self]

/-- **C86.** Signatures: of the function; of the operation that is copied; no parameters and the type. -/
theorem C86_signature (name : Option String) (o : Op) :
    (∀ f, define name (.callable f) = .ok (.op o) → o.signature = f.sig) ∧
    (∀ p, define name (.operation p) = .ok (.op o) → o.signature = p.signature) ∧
    (∀ n t, define name (.type n t) = .ok (.op o) → o.signature = .ok ⟨[], t⟩) ∧
    (∀ n sig f, define name (.builtin n sig f) = .ok (.op o) → o.signature = sig) := by
  refine ⟨fun f h => ?_, fun f h => ?_, fun n t h => ?_, fun n sig f h => ?_⟩ <;>
  · obtain ⟨o', hm, e⟩ := map_ok h
    cases e
    exact mk_signature hm

/-- **C86.** The operation of an instance (`Operation.__get__` 477-502) has the signature of the operation of the class
without the first parameter, whether the signature was read before or not. -/
theorem C86_instance_signature (o : Op) (b : Body) (self : Arg) (r : Op) (p : Op) (hp : p = o ∨ p = o.read)
    (x : String) (xs : List String) (t : Nat) (hs : o.signature = .ok ⟨x :: xs, t⟩)
    (h : define none (.callable (boundFn (wrapsOp p b) self)) = .ok (.op r)) : r.signature = .ok ⟨xs, t⟩ := by
  rw [(C86_signature none r).1 _ h]
  rcases hp with rfl | rfl
  · simp only [boundFn, wrapsOp, hs]; rfl
  · simp only [boundFn, wrapsOp, read_signature, hs]; rfl

/-! ## Behaviour -/

/-- **C86.** An operation made of a function does what the function does, and stands for itself when the function raises
NotHandled. -/
theorem C86_function (name : Option String) (f : Fn) (n : Nat) (hb : f.body = .code n) (o : Op)
    (h : define name (.callable f) = .ok (.op o)) (e : Env) (a : Args) :
    (∀ v, e.code n a = .ret v → o.call e a = .value v) ∧
    (∀ x, e.code n a = .raised x → o.call e a = .raised x) ∧
    (∀ s, e.code n a = .notHandled → f.sig = .ok s → e.binds s a = true → o.call e a = .term o a) := by
  have hs := (C86_signature name o).1 f h
  obtain ⟨o', hm, e'⟩ := map_ok h
  cases e'
  have hd := (mk_name hm).2.2.1
  refine ⟨fun v hv => ?_, fun x hx => ?_, fun s hn hsig hbind => ?_⟩
  · simp only [Op.call, hd, hb, Body.call, hv]
  · simp only [Op.call, hd, hb, Body.call, hx]
  · simp only [Op.call, hd, hb, Body.call, hn, node, hs, hsig, hbind, if_true]

/-- **C86.** A copy of an operation and a variable have no default rule: every call that binds is a term, whatever the
operation that is copied does. -/
theorem C86_free (name : Option String) (o : Op) (e : Env) (a : Args) :
    (∀ p s, define name (.operation p) = .ok (.op o) → p.signature = .ok s →
      o.call e a = if e.binds s a then .term o a else .err .type) ∧
    (∀ n t, define name (.type n t) = .ok (.op o) → e.binds ⟨[], t⟩ ⟨[], []⟩ = true →
      o.call e ⟨[], []⟩ = .term o ⟨[], []⟩) ∧
    (∀ n t, define name (.type n t) = .ok (.op o) → a ≠ ⟨[], []⟩ → o.call e a = .err .type) := by
  refine ⟨fun p s h hs => ?_, fun n t h hb => ?_, fun n t h ha => ?_⟩
  · have hsig := (C86_signature name o).2.1 p h
    obtain ⟨o', hm, e'⟩ := map_ok h
    cases e'
    simp only [Op.call, (mk_name hm).2.2.1, wrapsOp, Body.call, node, hsig, hs]
  · have hsig := (C86_signature name o).2.2.1 n t h
    obtain ⟨o', hm, e'⟩ := map_ok h
    cases e'
    simp only [Op.call, (mk_name hm).2.2.1, Body.call, node, hsig, hb, and_self, if_true]
  · obtain ⟨o', hm, e'⟩ := map_ok h
    cases e'
    have hne : ¬(a.pos = [] ∧ a.kw = []) := fun ⟨h1, h2⟩ => ha (by cases a; simp_all)
    simp only [Op.call, (mk_name hm).2.2.1, Body.call, hne, if_false]

/-- **C86.** An operation made of a builtin function calls it, unless an argument has free variables. -/
theorem C86_builtin (name : Option String) (n : String) (sig : Except Err Sig) (f : Nat) (o : Op)
    (h : define name (.builtin n sig f) = .ok (.op o)) (e : Env) (a : Args) :
    ((∀ x ∈ a.pos, x.open = false) → (∀ x ∈ a.kw, x.2.open = false) → ∀ v, e.code f a = .ret v → o.call e a = .value v) ∧
    (∀ s, ((∃ x ∈ a.pos, x.open = true) ∨ ∃ x ∈ a.kw, x.2.open = true) → sig = .ok s → e.binds s a = true →
      o.call e a = .term o a) := by
  have hs := (C86_signature name o).2.2.2 n sig f h
  obtain ⟨o', hm, e'⟩ := map_ok h
  cases e'
  have hd := (mk_name hm).2.2.1
  refine ⟨fun h1 h2 v hv => ?_, fun s ho hsig hb => ?_⟩
  · have hc : a.open = false := by
      simp only [Args.open, Bool.or_eq_false_iff, List.any_eq_false]
      exact ⟨fun x hx => by simp [h1 x hx], fun x hx => by simp [h2 x hx]⟩
    simp only [Op.call, hd, Body.call, hc, Bool.false_eq_true, if_false, hv]
  · have hc : a.open = true := by
      simp only [Args.open, Bool.or_eq_true, List.any_eq_true]
      exact ho
    simp only [Op.call, hd, Body.call, hc, if_true, node, hs, hsig, hb]

/-- The implementation for a class: that of the first class of its `mro` that has one, or the one for `object`. -/
def Chosen (e : Env) (r c : Nat) (i : Impl) : Prop :=
  (∃ pre k post, e.mro c = pre ++ k :: post ∧ (∀ x ∈ pre, (e.reg r).impls.lookup x = none) ∧
    (e.reg r).impls.lookup k = some i) ∨
  ((∀ x ∈ e.mro c, (e.reg r).impls.lookup x = none) ∧ i = (e.reg r).base)

theorem findSome_split {α β : Type} (f : α → Option β) (l : List α) :
    (∃ pre k post i, l = pre ++ k :: post ∧ (∀ x ∈ pre, f x = none) ∧ f k = some i ∧ l.findSome? f = some i) ∨
    ((∀ x ∈ l, f x = none) ∧ l.findSome? f = none) := by
  induction l with
  | nil => exact Or.inr ⟨by simp, rfl⟩
  | cons a l ih =>
    cases ha : f a with
    | some i => exact Or.inl ⟨[], a, l, i, rfl, by simp, ha, by simp [ha]⟩
    | none =>
      rcases ih with ⟨pre, k, post, i, e, hp, hk, hf⟩ | ⟨hn, hf⟩
      · refine Or.inl ⟨a :: pre, k, post, i, by rw [e]; rfl, ?_, hk, by simp [ha, hf]⟩
        intro x hx
        rcases List.mem_cons.1 hx with rfl | hx
        · exact ha
        · exact hp x hx
      · refine Or.inr ⟨?_, by simp [ha, hf]⟩
        intro x hx
        rcases List.mem_cons.1 hx with rfl | hx
        · exact ha
        · exact hn x hx

theorem dispatch_chosen (e : Env) (r c : Nat) : Chosen e r c (e.dispatch r c) := by
  rcases findSome_split (fun k => (e.reg r).impls.lookup k) (e.mro c) with ⟨pre, k, post, i, h, hp, hk, hf⟩ | ⟨hn, hf⟩
  · exact Or.inl ⟨pre, k, post, h, hp, by simp only [Env.dispatch, hf, Option.getD_some, hk]⟩
  · exact Or.inr ⟨hn, by simp only [Env.dispatch, hf, Option.getD_none]⟩

theorem chosen_unique {e : Env} {r c : Nat} {i j : Impl} (hi : Chosen e r c i) (hj : Chosen e r c j) : i = j := by
  have key : ∀ i, Chosen e r c i → i = ((e.mro c).findSome? fun k => (e.reg r).impls.lookup k).getD (e.reg r).base := by
    rintro i (⟨pre, k, post, h, hp, hk⟩ | ⟨hn, rfl⟩)
    · have : (e.mro c).findSome? (fun k => (e.reg r).impls.lookup k) = some i := by
        rw [h, List.findSome?_append, List.findSome?_eq_none_iff.2 hp]
        simp [hk]
      rw [this]; rfl
    · rw [List.findSome?_eq_none_iff.2 hn]; rfl
  rw [key i hi, key j hj]

/-- **C86.** An operation made of a single-dispatch method calls the implementation for the class of the argument after
`self`; implementations that are registered later with `op.register` are used. -/
theorem C86_dispatch (name : Option String) (w : Wrapped) (f : Fn) (r : Nat) (o : Op)
    (h : define name (.dispatchMethod w f r) = .ok (.op o)) (e : Env) (obj x : Arg) (xs : List Arg)
    (kw : List (String × Arg)) :
    (∀ i v, Chosen e r x.cls i →
      e.code i.fn ⟨if i.static then x :: xs else obj :: x :: xs, kw⟩ = .ret v →
      o.call e ⟨obj :: x :: xs, kw⟩ = .value v) ∧
    (∀ i rest, e.mro x.cls = x.cls :: rest → ∃ e', o.register x.cls i e = some e' ∧
      ∀ v, e.code i.fn ⟨if i.static then x :: xs else obj :: x :: xs, kw⟩ = .ret v →
        o.call e' ⟨obj :: x :: xs, kw⟩ = .value v) := by
  have h' : ∃ o', mk ⟨some (f.name.getD "_wrapper"), f.sig, f.dict, .dispatched r⟩ name = .ok o' ∧
      Obj.op { o' with dict := o'.dict.set "register" (.reg r) } = .op o := by
    cases w with
    | classMethod => cases h
    | plain => exact map_ok h
    | static => exact map_ok h
  obtain ⟨o', hm, e'⟩ := h'
  cases e'
  have hd := (mk_name hm).2.2.1
  have key : ∀ (e : Env) i v, Chosen e r x.cls i →
      e.code i.fn ⟨if i.static then x :: xs else obj :: x :: xs, kw⟩ = .ret v →
      Op.call e { o' with dict := o'.dict.set "register" (.reg r) } ⟨obj :: x :: xs, kw⟩ = .value v := by
    intro e i v hi hv
    have hu := chosen_unique (dispatch_chosen e r x.cls) hi
    subst hu
    have hv' : e.code (e.dispatch r x.cls).fn (if (e.dispatch r x.cls).static then ⟨x :: xs, kw⟩
        else ⟨obj :: x :: xs, kw⟩) = .ret v := by
      rw [← hv]; split <;> rfl
    simp only [Op.call, hd, Body.call, hv']
  refine ⟨key e, fun i rest hmro => ?_⟩
  refine ⟨_, by simp only [Op.register, set_self]; rfl, fun v hv => ?_⟩
  refine key _ i v (Or.inl ⟨[], x.cls, rest, hmro, by simp, ?_⟩) hv
  simp

/-- Example objects. -/
def anArg : Arg := ⟨1, 1, false⟩
def openArg : Arg := ⟨2, 1, true⟩
def aFn : Fn := ⟨some "f", .ok ⟨["x"], 0⟩, [("tag", .val 3)], .code 7⟩
def aMethod : Fn := ⟨some "m", .ok ⟨["self", "x"], 0⟩, [], .code 8⟩
def anEnv : Env where
  code n a := if n = 8 then .notHandled else .ret ⟨n + a.pos.length, 0, false⟩
  customCode n _ _ := .ret ⟨n, 0, false⟩
  binds s a := s.params.length = a.pos.length
  mro c := [c, 0]
  reg _ := ⟨[(1, ⟨5, false⟩)], ⟨6, true⟩⟩

example : ∃ o, define none (.callable aFn) = .ok (.op o) ∧ o.name = "f" ∧ o.dict.lookup "tag" = some (.val 3) ∧
    o.call anEnv ⟨[anArg], []⟩ = .value ⟨8, 0, false⟩ := ⟨_, rfl, rfl, rfl, rfl⟩

example : ∃ o, define (some "g") (.callable aMethod) = .ok (.op o) ∧ o.name = "g" ∧
    o.call anEnv ⟨[anArg, openArg], []⟩ = .term o ⟨[anArg, openArg], []⟩ := ⟨_, rfl, rfl, rfl⟩

example : ∃ o, define none (.static (.builtin "abs" (.ok ⟨["x"], 0⟩) 9)) = .ok (.static (.op o)) ∧ o.name = "abs" ∧
    o.call anEnv ⟨[anArg], []⟩ = .value ⟨10, 0, false⟩ ∧
    o.call anEnv ⟨[openArg], []⟩ = .term o ⟨[openArg], []⟩ := ⟨_, rfl, rfl, rfl, rfl⟩

example : ∃ o, define none (.dispatchMethod .plain aMethod 0) = .ok (.op o) ∧ Chosen anEnv 0 1 ⟨5, false⟩ ∧
    Chosen anEnv 0 2 ⟨6, true⟩ ∧
    o.call anEnv ⟨[anArg, anArg], []⟩ = .value ⟨7, 0, false⟩ ∧
    o.call anEnv ⟨[anArg, ⟨0, 2, false⟩], []⟩ = .value ⟨7, 0, false⟩ := by
  refine ⟨_, rfl, Or.inl ⟨[], 1, [0], rfl, by simp, rfl⟩, Or.inr ⟨by decide, rfl⟩, rfl, rfl⟩

example : ∃ o p r, define none (.callable aMethod) = .ok (.op o) ∧ p = o.read ∧ p.dict.lookup "_signature" ≠ none ∧
    define none (.callable (boundFn (wrapsOp p .free) anArg)) = .ok (.op r) ∧ r.signature = .ok ⟨["x"], 0⟩ :=
  ⟨_, _, _, rfl, rfl, by decide, rfl, rfl⟩

/-! ## What does not hold -/

/-- **C86, negation.** No variable can be made for a union `X | Y`, even with a name. -/
theorem C86_union_fails (name : Option String) (t : Nat) : ∀ r, define name (.union t) ≠ .ok r := fun _ h => nomatch h

/-- **C86, negation.** A callable without `__name__`, such as a partial, needs a name; without a signature either (as
`typing.get_type_hints` rejects it) the operation has no terms: where the code raises NotHandled, TypeError results. -/
theorem C86_nameless_fails (f : Fn) (hf : f.name = none) :
    define none (.callable f) = .error .attribute ∧
    ∀ n, n ≠ "" → f.sig = .error .type → ∀ k, f.body = .code k → ∃ o, define (some n) (.callable f) = .ok (.op o) ∧
      ∀ (e : Env) a, e.code k a = .notHandled → o.call e a = .err .type := by
  refine ⟨by simp only [define, mk, hf]; rfl, fun n hn hs k hk => ?_⟩
  refine ⟨⟨n, f, f.dict.pop "_signature"⟩, by simp only [define, mk, hn, if_false]; rfl, fun e a ha => ?_⟩
  simp only [Op.call, hk, Body.call, ha, node, Op.signature, pop_self, hs]

/-- **C86, negation.** A builtin function that has no signature, such as `max`, gives an operation that has no terms:
called with a term it raises ValueError. -/
theorem C86_builtin_fails (name : Option String) (n : String) (f : Nat) :
    ∃ o, define name (.builtin n (.error .value) f) = .ok (.op o) ∧
      ∀ (e : Env) (a : Args), (∃ x ∈ a.pos, x.open = true) → o.call e a = .err .value := by
  obtain ⟨r, hr⟩ := (C86_accepts name (.builtin n (.error .value) f)).2 trivial
  obtain ⟨o, hm, rfl⟩ := map_ok hr
  refine ⟨o, hr, fun e a ho => ?_⟩
  have hc : a.open = true := by
    simp only [Args.open, Bool.or_eq_true, List.any_eq_true]
    exact Or.inl ho
  have hs := mk_signature hm
  simp only [Op.call, (mk_name hm).2.2.1, Body.call, hc, if_true, node, hs]

/-- **C86, negation.** The name that is given for a class method is not used: the operation of the class has the name of
the function. -/
theorem C86_classmethod_name_fails : ∃ (f : Fn) (name : String), name ≠ "" ∧ define (some name) (.classMethod f) = .ok (.classMethod f) ∧
    ∀ (c : Arg) (o : Op), classOp f c = .ok (.op o) → o.name ≠ name := by
  refine ⟨aMethod, "other", by decide, rfl, fun c o h => ?_⟩
  have h' : (mk (boundFn aMethod c) none).map Obj.op = .ok (.op o) := h
  obtain ⟨o', hm, e⟩ := map_ok h'
  cases e
  have : aMethod.name = some o.name := (mk_name hm).2.1 (Or.inl rfl)
  intro e
  rw [e] at this
  exact absurd this (by decide)

/-- **C86, negation.** Registering an implementation on a copy of a single-dispatch operation changes the operation that was
copied, and not the copy. -/
theorem C86_copy_register_fails : ∃ (o p : Op) (e e' : Env) (i : Impl) (a : Args),
    define none (.dispatchMethod .plain aMethod 0) = .ok (.op o) ∧ define none (.operation o) = .ok (.op p) ∧
    p.register 1 i e = some e' ∧ o.call e' a ≠ o.call e a ∧ p.call e' a = p.call e a := by
  refine ⟨_, _, anEnv, _, ⟨20, false⟩, ⟨[anArg, anArg], []⟩, rfl, rfl, rfl, ?_, rfl⟩
  intro h
  have h' : (Result.value ⟨22, 0, false⟩ : Result) = .value ⟨7, 0, false⟩ := h
  cases h'

/-- `__set_name__` (459-464). -/
def Op.setName (ownerIsTerm : Bool) (key : DVal) (o : Op) : Except Err Op :=
  if ownerIsTerm then .ok o
  else if (o.dict.lookup "_name_on_instance").isSome then .error .assertion
  else .ok { o with dict := o.dict.set "_name_on_instance" key }

/-- **C86.** An operation made of a function without that attribute can be made an attribute of a class. -/
theorem C86_method (name : Option String) (f : Fn) (hf : f.dict.lookup "_name_on_instance" = none) (o : Op)
    (h : define name (.callable f) = .ok (.op o)) (t : Bool) (key : DVal) : ∃ o', o.setName t key = .ok o' := by
  have := ((C86_attributes name o "_name_on_instance" (by decide)).1 f h).trans hf
  unfold Op.setName
  split
  · exact ⟨_, rfl⟩
  · rw [this]; exact ⟨_, rfl⟩

/-- **C86, negation.** A copy of an operation that is an attribute of a class cannot be an attribute of a class: defining
the class raises AssertionError. -/
theorem C86_copy_method_fails (name : Option String) (o o' p : Op) (key key' : DVal) (h : o.setName false key = .ok o')
    (hp : define name (.operation o') = .ok (.op p)) : p.setName false key' = .error .assertion := by
  have hl : o'.dict.lookup "_name_on_instance" = some key := by
    unfold Op.setName at h
    simp only [Bool.false_eq_true, if_false] at h
    split at h
    · cases h
    · cases h; exact set_self _ _ _
  have := ((C86_attributes name p "_name_on_instance" (by decide)).2.1 o' hp).trans hl
  simp only [Op.setName, Bool.false_eq_true, if_false, this, Option.isSome_some, if_true]

example : ∃ o o' p, define none (.callable aMethod) = .ok (.op o) ∧ o.setName false (.val 1) = .ok o' ∧
    define none (.operation o') = .ok (.op p) := ⟨_, _, _, rfl, rfl, rfl⟩

/-- **C86, negation.** A copy that is put into a class later is the operation that was copied, on instances where that was
used before: both have the same key in the `__dict__` of the instance (`Operation.__get__` 466-505). -/
theorem C86_copy_get_fails : ∃ (s s1 s2 : Method.State) (d c : Method.Desc) (o : Nat), c.key = d.key ∧ c ≠ d ∧
    Method.get s d 0 false = (.iop o, s1) ∧ Method.get s1 c 0 false = (.iop o, s2) :=
  ⟨⟨[⟨true, [], false⟩], []⟩, _, _, ⟨0, some [1]⟩, ⟨1, some [1]⟩, 0, rfl, by decide, rfl, rfl⟩

end Verif.Objects.Define
