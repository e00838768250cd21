import Mathlib.Data.Finset.Basic
import Verif.Terms.Expr

/-!
# Scoped annotations

Model of `Scoped` (`ops/syntax.py` 21-382) and of `Operation.__fvs_rule__`
(`ops/types.py` 414-451).
-/

namespace Verif.Scoped

open Verif.Terms (Op Slot Expr)

abbrev TyVar := Nat

/-- A (possibly `Annotated`) annotation. Simplified: of the underlying type only the free type
variables are kept (`_get_free_type_vars`, `ops/syntax.py` 211-225). -/
structure Anno where
  /-- the ordinals of the `Scoped` objects in the metadata, in order -/
  scopes : List (Finset TyVar)
  /-- the rest of the metadata -/
  other : List Nat
  /-- type variables of the annotated type -/
  tyvars : Finset TyVar
  deriving DecidableEq

/-- `inspect.Parameter.kind`. Simplified: positional-only and positional-or-keyword parameters are
one kind, because `Signature.bind` turns their keyword arguments into positional ones. -/
inductive Kind : Type where
  | pos
  | varPos
  | kwOnly (name : String)
  | varKw
  deriving DecidableEq

structure Param where
  kind : Kind
  /-- `_param_is_var(param)` (`ops/syntax.py` 138-151): the annotated type is `Operation` -/
  isVar : Bool
  anno : Anno
  deriving DecidableEq

structure Sig where
  params : List Param
  ret : Anno
  deriving DecidableEq

/-- `_get_param_ordinal` (`ops/syntax.py` 154-169): the first `Scoped` in the metadata, or the
empty set. -/
def Anno.ordinal (a : Anno) : Finset TyVar := a.scopes.headD ∅

/-- All annotations of a signature, result first. -/
def Sig.annos (s : Sig) : List Anno := s.ret :: s.params.map (·.anno)

/-- `_get_root_ordinal` (`ops/syntax.py` 172-181). -/
def Sig.root (s : Sig) : Finset TyVar :=
  (s.params.map (·.anno)).foldl (fun acc a => acc ∩ a.ordinal) s.ret.ordinal

/-- `_check_has_single_scope` (`ops/syntax.py` 188-200). It does not look at the result. -/
def Sig.singleScope (s : Sig) : Bool := s.params.all (fun p => p.anno.scopes.length ≤ 1)

/-- `_check_no_typevar_overlap` (`ops/syntax.py` 203-237). -/
def Sig.noOverlap (s : Sig) : Bool :=
  s.annos.all (fun a => s.annos.all (fun b => b.tyvars ∩ a.ordinal = ∅))

/-- `_check_no_boundvars_in_result` (`ops/syntax.py` 240-260). -/
def Sig.noBoundInResult (s : Sig) : Bool :=
  !(s.params.any (fun p => p.isVar &&
    decide (s.root ⊂ p.anno.ordinal ∧ p.anno.ordinal ⊆ s.ret.ordinal)))

/-- One new annotation (`ops/syntax.py` 294-302). -/
def Anno.join (root : Finset TyVar) (a : Anno) : Anno :=
  { a with scopes := [a.ordinal ∪ root] }

/-- The root scope that is used: the intersection, or a new type variable
(`ops/syntax.py` 284-286). -/
def Sig.rootOr (s : Sig) (fresh : TyVar) : Finset TyVar :=
  if s.root = ∅ then {fresh} else s.root

/-- The reason for a failure. -/
inductive Err : Type where
  | assertion
  | type
  | value
  | key
  /-- RecursionError -/
  | recursion
  /-- an exception raised by user code -/
  | user (n : Nat)
  deriving DecidableEq, Repr

/-- `infer_annotations` (`ops/syntax.py` 263-318). `fresh` is the new `TypeVar("RootScope")`. -/
def Sig.infer (s : Sig) (fresh : TyVar) : Except Err Sig :=
  if !s.singleScope then .error .assertion
  else if !s.noOverlap then .error .assertion
  else if !s.noBoundInResult then .error .assertion
  else
    let root := s.rootOr fresh
    let s' : Sig :=
      { params := s.params.map (fun p => { p with anno := p.anno.join root })
        ret := s.ret.join root }
    if s'.root = root ∧ root ≠ ∅ then .ok s' else .error .assertion

/-! ## Binding arguments to parameters -/

/-- The kinds of the parameters. -/
def Sig.kinds (s : Sig) : List Kind := s.params.map (·.kind)

/-- Indices of the positional parameters. -/
def Sig.posIdx (s : Sig) : List Nat :=
  (List.range s.kinds.length).filter (fun i => s.kinds[i]? = some .pos)

/-- Index of the first parameter of a kind. -/
def Sig.kindIdx (s : Sig) (k : Kind) : Option Nat := s.kinds.findIdx? (fun k' => k' = k)

/-- The parameter that receives an argument; `n` is the number of positional arguments before
it. -/
def Sig.paramFor (s : Sig) (n : Nat) : Slot → Option Nat
  | .pos => (s.posIdx[n]?).or (s.kindIdx .varPos)
  | .kw name => (s.kindIdx (.kwOnly name)).or (s.kindIdx .varKw)

/-- The parameter of each argument. -/
def Sig.assign (s : Sig) : Nat → List Slot → Option (List Nat)
  | _, [] => some []
  | n, sl :: sls => do
    let i ← s.paramFor n sl
    let is ← s.assign (if sl = .pos then n + 1 else n) sls
    return i :: is

/-- `sig.bind(*args, **kwargs)` as the parameter index of each argument. Simplified: no parameter
has a default (`apply_defaults` has already been done), so positional and keyword-only parameters
must each get exactly one argument. -/
def Sig.bind (s : Sig) (slots : List Slot) : Except Err (List Nat) :=
  match s.assign 0 slots with
  | none => .error .type
  | some is =>
    if s.kinds.zipIdx.all (fun e =>
        match e.1 with
        | .pos => is.count e.2 = 1
        | .kwOnly _ => is.count e.2 = 1
        | _ => true)
    then .ok is else .error .type

/-- The arguments that were bound to parameter `j`. -/
def argsOf (is : List Nat) (xs : List Expr) (j : Nat) : List Expr :=
  ((is.zip xs).filter (fun e => e.1 = j)).map (·.2)

/-! ## Bound variables -/

/-- The operations passed for a parameter of type `Operation` (`ops/syntax.py` 347-360).
Simplified: a value that is not an operation is a `TypeError`. -/
def varsOf : List Expr → Except Err (List Op)
  | [] => .ok []
  | .op o :: xs => (varsOf xs).map (o :: ·)
  | _ :: _ => .error .type

/-- The set `param_bound_vars` of one parameter (`ops/syntax.py` 342-375), as a duplicate-free list.
`vals` are the arguments of the parameter. -/
def paramVars (p : Param) (vals : List Expr) : Except Err (List Op) :=
  if p.isVar then
    match varsOf vals with
    | .error e => .error e
    | .ok vs => if vs.Nodup then .ok vs else .error .assertion
  else if p.anno.ordinal = ∅ then .ok []
  else .ok (Verif.Terms.uniq (Expr.extractL vals))

/-- The loop of `analyze` (`ops/syntax.py` 339-382) over the parameters from index `j` on. `q` is the
ordinal of the annotation on which `analyze` is called, `r` that of the result. -/
def analyzeLoop (is : List Nat) (xs : List Expr) (q r : Finset TyVar) :
    Nat → List Param → List Op → Except Err (List Op)
  | _, [], bound => .ok bound
  | j, p :: ps, bound =>
    if p.anno.ordinal ⊆ q ∧ ¬ p.anno.ordinal ⊆ r then
      match paramVars p (argsOf is xs j) with
      | .error e => .error e
      | .ok vs =>
        if vs.any (fun v => bound.contains v) then .error .assertion
        else analyzeLoop is xs q r (j + 1) ps (bound ++ vs)
    else analyzeLoop is xs q r (j + 1) ps bound

/-- `analyze` (`ops/syntax.py` 320-382) for the annotation of parameter `q`. -/
def Sig.analyze (s : Sig) (is : List Nat) (xs : List Expr) (q : Param) : Except Err (List Op) :=
  analyzeLoop is xs q.anno.ordinal s.ret.ordinal 0 s.params []

/-- Sequence a list of results. -/
def allOk {α : Type} : List (Except Err α) → Except Err (List α)
  | [] => .ok []
  | .error e :: _ => .error e
  | .ok a :: rs => (allOk rs).map (a :: ·)

/-- `__fvs_rule__` (`ops/types.py` 414-451): the set of bound variables for each argument, in the
order of the arguments. `__fvs_rule__` calls `analyze` once per parameter; all arguments of a
variadic parameter get the same set. A parameter without arguments is analyzed as well, which can
only fail. -/
def Sig.fvsRule (s : Sig) (fresh : TyVar) (slots : List Slot) (xs : List Expr) :
    Except Err (List (List Op)) :=
  match s.infer fresh with
  | .error e => .error e
  | .ok s' =>
    match s'.bind slots with
    | .error e => .error e
    | .ok is =>
      match allOk (s'.params.map (s'.analyze is xs)) with
      | .error e => .error e
      | .ok bs => .ok (is.map (fun i => bs.getD i []))

end Verif.Scoped
