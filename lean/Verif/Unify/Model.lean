/-!
# Unification of types

Model of `internals/unification.py`: `unify` 204-299, `_unify_typevar` 314-326, `_unify_sequence` 341-348,
`_unify_union` 363-380, `_unify_generic` 524-581, the loop of `_unify_signature` 584-619, `canonicalize` on
classes and aliases 664-763, `substitute` 1168-1221.

Simplifications: `canonicalize` maps a class to a class (the canonical form of `range` or of a subclass of
`list[int]`, which are generic aliases, and typed dicts, literals, annotated types, protocols and forward
references are left out); the variadic tuple `tuple[X, ...]` is written in its canonical form
`Sequence[X]`; unions are not flattened and deduplicated, and are compared in order; type variables have no
constraints, variance or defaults; `Operation[P, R]` as a subtype of `Callable[P, R]` and the array case are left out.
-/

namespace Verif.Unify

/-- Type expressions: type variables, classes, `Any`, `...`, generic aliases, unions, and lists or tuples of
type expressions. -/
inductive Ty where
  | var (n : Nat)
  | con (c : Nat)
  | any
  | ell
  | gen (c : Nat) (ts : List Ty)
  | union (ts : List Ty)
  | seq (ts : List Ty)
  deriving Repr

mutual
/-- `==` on type expressions. -/
def Ty.beq : Ty → Ty → Bool
  | .var a, .var b => a == b
  | .con a, .con b => a == b
  | .any, .any => true
  | .ell, .ell => true
  | .gen c ts, .gen d us => c == d && Ty.beqs ts us
  | .union ts, .union us => Ty.beqs ts us
  | .seq ts, .seq us => Ty.beqs ts us
  | _, _ => false
termination_by structural t => t
def Ty.beqs : List Ty → List Ty → Bool
  | [], [] => true
  | t :: ts, u :: us => Ty.beq t u && Ty.beqs ts us
  | _, _ => false
termination_by structural t => t
end

/-- Substitutions: dicts from type variables to type expressions. -/
abbrev Subs := List (Nat × Ty)

def get (r : Subs) (v : Nat) : Option Ty := r.lookup v

/-- `{v: t, **subs}`: an existing binding of `v` wins. -/
def add (v : Nat) (t : Ty) (r : Subs) : Subs :=
  match get r v with
  | some _ => r
  | none => (v, t) :: r

/-- `u == w` on dicts. -/
def dictEq (u w : Subs) : Bool :=
  u.length == w.length && u.all (fun p => match get w p.1 with
    | some t => Ty.beq p.2 t
    | none => false)

/-- The classes. `sub d c` is `issubclass(d, c)`; `cn` is `canonicalize`; `bases d` are the original bases
of `d`: the origin, and `base[args]` if that does not raise. `bounds` are the bounds of type variables. -/
structure Table where
  sub : Nat → Nat → Bool
  cn : Nat → Nat
  bases : Nat → List (Nat × (List Ty → Option Ty))
  tuple : Nat
  sequence : Nat
  mapping : Nat
  generator : Nat
  /-- the bounds of type variables -/
  bounds : Nat → Option Ty := fun _ => none

mutual
/-- `canonicalize` (664-763). -/
def canon (T : Table) : Ty → Ty
  | .var n => .var n
  | .con c => .con (T.cn c)
  | .any => .any
  | .ell => .ell
  | .gen c ts => .gen (T.cn c) (canons T ts)
  | .union ts => .union (canons T ts)
  | .seq ts => .seq (canons T ts)
termination_by structural t => t
def canons (T : Table) : List Ty → List Ty
  | [] => []
  | t :: ts => canon T t :: canons T ts
termination_by structural t => t
end

/-- The result of `unify`: `none` when the model runs out of fuel, `some none` for a TypeError. -/
abbrev Out := Option (Option Subs)

/-- Unification with less fuel. -/
abbrev Uni := Ty → Ty → Subs → Out

def isVar : Ty → Bool
  | .var _ => true
  | _ => false

def isSeq : Ty → Bool
  | .seq _ => true
  | _ => false

def isUnion : Ty → Bool
  | .union _ => true
  | _ => false

def isGen : Ty → Bool
  | .gen _ _ => true
  | _ => false

def isEll : Ty → Bool
  | .ell => true
  | _ => false

def isAny : Ty → Bool
  | .any => true
  | _ => false

/-- A sequence of calls of `unify`, each with the substitution of the previous one. -/
def fold (U : Uni) : List (Ty × Ty) → Subs → Out
  | [], r => some (some r)
  | (t, s) :: rest, r =>
    match U t s r with
    | some (some r') => fold U rest r'
    | x => x

/-- `_unify_typevar` (314-326). -/
def unifyVar (T : Table) (U : Uni) (t s : Ty) (r : Subs) : Out :=
  match t, s with
  | .var a, .var b => if a = b then some (some r) else some (some (add a (.var b) r))
  | .var a, s => U ((get r a).getD s) s (add a s r)
  | t, .var b => if (T.bounds b).isNone then U t ((get r b).getD t) (add b t r) else some none
  | _, _ => some none

/-- `_unify_sequence` (341-348). -/
def unifySeq (U : Uni) (t s : Ty) (r : Subs) : Out :=
  if isEll t || isEll s then some (some r)
  else match t, s with
    | .seq ts, .seq ss => if ts.length = ss.length then fold U (ts.zip ss) r else some none
    | _, _ => some none

/-- The unifiers of the alternatives, without those that raise (372-377). -/
def alternatives (U : Uni) (s : Ty) (r : Subs) : List Ty → Option (List Subs)
  | [] => some []
  | t :: ts =>
    match U t s r, alternatives U s r ts with
    | some (some r'), some rs => some (r' :: rs)
    | some none, some rs => some rs
    | _, _ => none

/-- `_unify_union` (363-380). -/
def unifyUnion (U : Uni) (t s : Ty) (r : Subs) : Out :=
  match s with
  | .union ss => fold U (ss.map (fun a => (t, a))) r
  | s =>
    match t with
    | .union ts =>
      match alternatives U s r ts with
      | none => none
      | some [] => some none
      | some (u :: us) => if us.all (dictEq · u) then some (some u) else some none
    | _ => some none

/-- The first original base that is a subclass of the origin of the pattern (555-561). -/
def findBase (T : Table) (c : Nat) : List (Nat × (List Ty → Option Ty)) → Option (List Ty → Option Ty)
  | [] => none
  | (b, f) :: bs => if T.sub b c then some f else findBase T c bs

/-- `_unify_generic` (524-581). -/
def unifyGen (T : Table) (U : Uni) (t s : Ty) (r : Subs) : Out :=
  match t, s with
  | .gen c ts, .gen d ss =>
    if T.sub d c then
      if d = T.tuple ∧ c ≠ T.tuple then fold U (ss.map (fun a => (t, .gen T.sequence [a]))) r
      else if d = T.mapping ∧ T.sub c T.mapping = false then
        match ts, ss with
        | a :: _, b :: _ => U a b r
        | _, _ => some none
      else if d = T.generator ∧ T.sub c T.generator = false then
        match ts, ss with
        | a :: _, b :: _ => U a b r
        | _, _ => some none
      else if c = d then U (.seq ts) (.seq ss) r
      else
        match findBase T c (T.bases d) with
        | some f =>
          match f ss with
          | some b => U t b r
          | none => some none
        | none => some none
    else some none
  | .con c, .gen d _ => U (.con c) (.con d) r
  | .any, .gen d _ => U .any (.con d) r
  | .gen c _, .con d => if T.sub d c then some (some r) else some none
  | _, _ => some none

/-- The body of `unify` for canonical types (262-299). -/
def unifyCanon (T : Table) (U : Uni) (t s : Ty) (r : Subs) : Out :=
  if Ty.beq t s then some (some r)
  else if isVar t || isVar s then unifyVar T U t s r
  else if isSeq t || isSeq s then unifySeq U t s r
  else if isUnion t || isUnion s then unifyUnion U t s r
  else if isGen t || isGen s then unifyGen T U t s r
  else match t, s with
    | .con c, .con d => if T.sub d c then some (some r) else some none
    | t, s => if isAny t || isEll t || isAny s || isEll s then some (some r) else some none

/-- `unify(typ, subtyp, subs)`. -/
def unify (T : Table) : Nat → Uni
  | 0, _, _, _ => none
  | n + 1, t, s, r => unifyCanon T (unify T n) (canon T t) (canon T s) r

/-- The loop of `_unify_signature` (590-619), given the pairs of annotation and argument type. -/
def unifySignature (T : Table) (n : Nat) (ps : List (Ty × Ty)) (r : Subs) : Out :=
  fold (unify T n) ps r

/-! ## Substitution -/

mutual
/-- `typ[args]` with `args = tuple(subs.get(fv, fv) …)`: each variable is replaced once. -/
def inst (r : Subs) : Ty → Ty
  | .var n => (get r n).getD (.var n)
  | .con c => .con c
  | .any => .any
  | .ell => .ell
  | .gen c ts => .gen c (insts r ts)
  | .union ts => .union (insts r ts)
  | .seq ts => .seq (insts r ts)
termination_by structural t => t
def insts (r : Subs) : List Ty → List Ty
  | [] => []
  | t :: ts => inst r t :: insts r ts
termination_by structural t => t
end

mutual
/-- `freetypevars` (1115-1165). -/
def fvs : Ty → List Nat
  | .var n => [n]
  | .gen _ ts => fvsL ts
  | .union ts => fvsL ts
  | .seq ts => fvsL ts
  | _ => []
termination_by structural t => t
def fvsL : List Ty → List Nat
  | [] => []
  | t :: ts => fvs t ++ fvsL ts
termination_by structural t => t
end

def mapAll (f : Ty → Option Ty) : List Ty → Option (List Ty)
  | [] => some []
  | t :: ts =>
    match f t, mapAll f ts with
    | some u, some us => some (u :: us)
    | _, _ => none

/-- `substitute(typ, subs)` (1213-1221); `none` when the recursion is deeper than the fuel. -/
def substitute (r : Subs) : Nat → Ty → Option Ty
  | 0, _ => none
  | n + 1, t =>
    match t with
    | .var v =>
      match get r v with
      | some b => substitute r n b
      | none => some (.var v)
    | .seq ts => (mapAll (substitute r n) ts).map .seq
    | t => if (fvs t).any (fun v => (get r v).isSome) then substitute r n (inst r t) else some t

end Verif.Unify
