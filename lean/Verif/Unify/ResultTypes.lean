/-!
# C103: the class of the term that a call gives follows from the annotated type of the result

Model of the annotation of the result in `Operation.__type_rule__` (`ops/types.py` 397-412), of `substitute` of type variables
in it (`internals/unification.py` 1168-1221), of `_simple_type` (`ops/semantics.py` 229-248), and of the choice of the class of
a term in `defdata` (`ops/syntax.py` 511-515) by `dispatch` of `functools.singledispatch`.

* Classes are numbers, values are numbers; a `World` says of which class a value is, and what is known about classes.
* The substitution found by `unify` is given (C32, C77); the types in it have no type variables, so `substitute` replaces a
  variable once.
* The composed order of classes that `functools._compose_mro` computes is given by the world.
* `Annotated` occurs only around the whole annotation. Bounds and constraints of type variables have no variables of that kind.
* Types are equal if they are written in the same way; python also merges members of a union that differ in the order of unions
  inside of them.
* The class of terms of dataclasses, and the construction of such classes, is that of C73.
* String annotations are those they refer to (`ops/types.py` 101).
-/

namespace Verif.Unify.ResultTypes

/-- Errors: `type` the TypeError "Union types are not supported", `noClass` the error of `dispatch` for something that is no class
(an AttributeError about `__mro__`, or a TypeError for objects without weak references), `runtime` a RuntimeError (`functools`
finds two classes). -/
inductive Err where
  | type
  | noClass
  | runtime
deriving DecidableEq, Repr

/-- Types as annotations.
* `cls c` a class, `gen c args` a generic alias with the origin `c` (`list[int]`, `Callable[[int], str]`), `any` is `Any`.
* `union true ms` is an instance of `types.UnionType` (`int | str`), `union false ms` one of `typing.Union` (`Optional[int]`, and
  `T | int`, `"A" | int`, `List[int] | None`).
* `lit vs` is `Literal` of values.
* `free n`, `bounded n t` and `constrained n t ts` are type variables: without a bound, with one, and with the constraints
  `t :: ts`.
* `newType n t` is `NewType("n", t)`, `named n t` is `type n = t`.
* `special n` another form that is no class: `Never`, `Self`, `LiteralString`, …. -/
inductive Anno where
  | cls (c : Nat)
  | gen (c : Nat) (args : List Anno)
  | any
  | union (bar : Bool) (ms : List Anno)
  | lit (vs : List Nat)
  | free (n : Nat)
  | bounded (n : Nat) (t : Anno)
  | constrained (n : Nat) (t : Anno) (ts : List Anno)
  | newType (n : Nat) (t : Anno)
  | named (n : Nat) (t : Anno)
  | special (n : Nat)

mutual

/-- Equality of types. -/
def Anno.beq : Anno → Anno → Bool
  | .cls c, .cls d => c == d
  | .gen c as, .gen d bs => c == d && Anno.beqs as bs
  | .any, .any => true
  | .union a as, .union b bs => a == b && Anno.beqs as bs
  | .lit vs, .lit ws => vs == ws
  | .free n, .free m => n == m
  | .bounded n t, .bounded m u => n == m && Anno.beq t u
  | .constrained n t ts, .constrained m u us => n == m && Anno.beq t u && Anno.beqs ts us
  | .newType n t, .newType m u => n == m && Anno.beq t u
  | .named n t, .named m u => n == m && Anno.beq t u
  | .special n, .special m => n == m
  | _, _ => false

def Anno.beqs : List Anno → List Anno → Bool
  | [], [] => true
  | a :: as, b :: bs => Anno.beq a b && Anno.beqs as bs
  | _, _ => false

end

/-- The annotation of a result: nothing, or a type, perhaps in `Annotated`. -/
inductive Ret where
  | empty
  | none
  | anno (a : Anno)
  | annotated (a : Anno)

/-- Classes and values. -/
structure World where
  object : Nat
  noneType : Nat
  /-- the class `typing.Any` -/
  anyCls : Nat
  /-- `type(v)` -/
  classOf : Nat → Nat
  /-- `issubclass(c, d)` -/
  sub : Nat → Nat → Bool
  /-- `c.__mro__` -/
  mro : Nat → List Nat
  /-- `functools._compose_mro(c, registry)` -/
  comp : Nat → List Nat
  /-- the classes in the registry of `defdata` -/
  registered : Nat → Bool

/-! ## The model -/

mutual

/-- Does the type have a variable (`freetypevars`, 1115-1165)? -/
def hasVar : Anno → Bool
  | .free _ => true
  | .bounded _ _ => true
  | .constrained _ _ _ => true
  | .gen _ as => hasVars as
  | .union _ ms => hasVars ms
  | _ => false

def hasVars : List Anno → Bool
  | [] => false
  | a :: as => hasVar a || hasVars as

end

/-- The members of a type as those of a union: unions in unions are flattened. -/
def members : Anno → List Anno
  | .union _ ms => ms
  | a => [a]

/-- Equal members of unions are merged, the first is kept. -/
def dedup (as : List Anno) : List Anno :=
  as.foldl (fun acc a => if acc.any (Anno.beq a) then acc else acc ++ [a]) []

/-- The union of types, by `typing.Union[…]` or `|`: it is the type itself if there is only one. -/
def mkUnion (bar : Bool) (as : List Anno) : Anno :=
  match dedup (as.flatMap members) with
  | [a] => a
  | ms => .union bar ms

mutual

/-- `substitute(a, σ)` (1213-1221). -/
def substitute (σ : Nat → Option Anno) : Anno → Anno
  | .free n => (σ n).getD (.free n)
  | .bounded n t => (σ n).getD (.bounded n t)
  | .constrained n t ts => (σ n).getD (.constrained n t ts)
  | .gen c as => .gen c (substitutes σ as)
  | .union bar ms => if hasVars ms then mkUnion bar (substitutes σ ms) else .union bar ms
  | a => a

def substitutes (σ : Nat → Option Anno) : List Anno → List Anno
  | [] => []
  | a :: as => substitute σ a :: substitutes σ as

end

/-- `__type_rule__` (397-412), where `σ` is what `unify` gives for the arguments of the call. -/
def typeRule (W : World) (σ : Nat → Option Anno) : Ret → Anno
  | .empty => .cls W.object
  | .none => .cls W.noneType
  | .anno a | .annotated a => if hasVar a then substitute σ a else a

/-- The type variable's type (231-238). -/
def ofVar (W : World) : Anno → Anno
  | .bounded _ t => t
  | .constrained _ t _ => t
  | .free _ => .cls W.object
  | a => a

/-- The union of the classes of the values of a literal type (239-245). -/
def ofLiteral (W : World) : Anno → Anno
  | .lit vs => mkUnion true (vs.map fun v => .cls (W.classOf v))
  | a => a

/-- `_simple_type(tp)` (229-248). The result `none` stands for something that is no class. -/
def simpleType (W : World) (tp : Anno) : Except Err (Option Nat) :=
  match ofLiteral W (ofVar W tp) with
  | .union true _ => .error .type
  | .cls c => .ok (some c)
  | .gen c _ => .ok (some c)
  | .any => .ok (some W.anyCls)
  | _ => .ok none

/-- The loop of `functools._find_impl`: `m` is the match so far. -/
def findImpl (W : World) (c : Nat) : List Nat → Option Nat → Except Err (Option Nat)
  | [], m => .ok m
  | t :: _, some m =>
    if W.registered t && !(W.mro c).contains t && !(W.mro c).contains m && !W.sub m t then .error .runtime
    else .ok (some m)
  | t :: ts, none => if W.registered t then findImpl W c ts (some t) else findImpl W c ts none

/-- `dispatch(c)`: the registered class that is found. -/
def dispatch (W : World) (c : Nat) : Except Err (Option Nat) :=
  if W.registered c then .ok (some c) else findImpl W c (W.comp c) none

/-- The class registered for the term of a call (`ops/syntax.py` 511-515). -/
def termClass (W : World) (σ : Nat → Option Anno) (r : Ret) : Except Err (Option Nat) := do
  match ← simpleType W (typeRule W σ r) with
  | some c => dispatch W c
  | none => .error .noClass

/-- `typeof(term)` for the term of such a call (`ops/semantics.py` 276-282). -/
def typeof (W : World) (σ : Nat → Option Anno) (r : Ret) : Except Err (Option Nat) :=
  simpleType W (typeRule W σ r)

/-! ## Specification -/

/-- What is true of the classes of every program. -/
structure World.Ok (W : World) : Prop where
  top : ∀ c, W.sub c W.object = true
  refl : ∀ c, W.sub c c = true
  trans : ∀ c d e, W.sub c d = true → W.sub d e = true → W.sub c e = true
  comp_sub : ∀ c, ∀ d ∈ W.comp c, W.sub c d = true
  comp_object : ∀ c, W.object ∈ W.comp c
  object_reg : W.registered W.object = true
  any_reg : W.registered W.anyCls = false
  any_comp : W.comp W.anyCls = [W.anyCls, W.object]

/-- No type variables are solved. -/
def unsolved : Nat → Option Anno := fun _ => none

/-- The value `v` is described by the type, where `σ` says what type variables stand for. Arguments of generic aliases are not
looked at: this holds for more values than are meant, so a class for all of them is one for those that are meant. -/
inductive Described (W : World) (v : Nat) : (Nat → Option Anno) → Anno → Prop
  | cls {σ c} : W.sub (W.classOf v) c = true → Described W v σ (.cls c)
  | gen {σ c as} : W.sub (W.classOf v) c = true → Described W v σ (.gen c as)
  | any {σ} : Described W v σ .any
  | union {σ b ms m} : m ∈ ms → Described W v σ m → Described W v σ (.union b ms)
  | lit {σ vs} : v ∈ vs → Described W v σ (.lit vs)
  | free {σ n} : σ n = none → Described W v σ (.free n)
  | free_solved {σ n t} : σ n = some t → Described W v unsolved t → Described W v σ (.free n)
  | bounded {σ n t} : σ n = none → Described W v unsolved t → Described W v σ (.bounded n t)
  | bounded_solved {σ n t u} : σ n = some u → Described W v unsolved u → Described W v σ (.bounded n t)
  | constrained {σ n t ts u} : σ n = none → u ∈ t :: ts → Described W v unsolved u → Described W v σ (.constrained n t ts)
  | constrained_solved {σ n t ts u} : σ n = some u → Described W v unsolved u → Described W v σ (.constrained n t ts)
  | newType {σ n t} : Described W v unsolved t → Described W v σ (.newType n t)
  | named {σ n t} : Described W v unsolved t → Described W v σ (.named n t)
  | special {σ n} : Described W v σ (.special n)

/-- The value is described by the annotation of a result. -/
inductive RetDescribed (W : World) (v : Nat) (σ : Nat → Option Anno) : Ret → Prop
  | empty : RetDescribed W v σ .empty
  | none : W.classOf v = W.noneType → RetDescribed W v σ .none
  | anno {a} : Described W v σ a → RetDescribed W v σ (.anno a)
  | annotated {a} : Described W v σ a → RetDescribed W v σ (.annotated a)

/-- Types that have a class. -/
inductive HasClass (W : World) : Anno → Nat → Prop
  | cls (c) : HasClass W (.cls c) c
  | gen (c as) : HasClass W (.gen c as) c
  | any : HasClass W .any W.anyCls
  | lit {v vs} : (∀ w ∈ vs, W.classOf w = W.classOf v) → HasClass W (.lit (v :: vs)) (W.classOf v)

/-- Types that stand for a class in a call where type variables stand for the types in `σ`. Unions
are not among them, see `C103_union_var` for those with type variables. -/
inductive AnnoClass (W : World) (σ : Nat → Option Anno) : Anno → Nat → Prop
  | type {a c} : HasClass W a c → AnnoClass W σ a c
  | free {n} : σ n = none → AnnoClass W σ (.free n) W.object
  | bounded {n a c} : σ n = none → HasClass W a c → AnnoClass W σ (.bounded n a) c
  | constrained {n a as c} : σ n = none → HasClass W a c → AnnoClass W σ (.constrained n a as) c
  | free_solved {n t c} : σ n = some t → HasClass W t c → AnnoClass W σ (.free n) c
  | bounded_solved {n a t c} : σ n = some t → HasClass W t c → AnnoClass W σ (.bounded n a) c
  | constrained_solved {n a as t c} : σ n = some t → HasClass W t c → AnnoClass W σ (.constrained n a as) c

/-- Annotations of a result that stand for a class. -/
inductive RetClass (W : World) (σ : Nat → Option Anno) : Ret → Nat → Prop
  | empty : RetClass W σ .empty W.object
  | none : RetClass W σ .none W.noneType
  | anno {a c} : AnnoClass W σ a c → RetClass W σ (.anno a) c
  | annotated {a c} : AnnoClass W σ a c → RetClass W σ (.annotated a) c

/-- A type variable occurs in the type. -/
inductive Mentions : Anno → Prop
  | free (n) : Mentions (.free n)
  | bounded (n t) : Mentions (.bounded n t)
  | constrained (n t ts) : Mentions (.constrained n t ts)
  | gen {c as a} : a ∈ as → Mentions a → Mentions (.gen c as)
  | union {b ms m} : m ∈ ms → Mentions m → Mentions (.union b ms)

/-- The annotation is a union, and one of its members has a type variable in it. -/
def Ret.unionVar : Ret → Prop
  | .anno (.union _ ms) | .annotated (.union _ ms) => ∃ m ∈ ms, Mentions m
  | _ => False

/-- Two registered classes that are equally near to `c`: they follow one another in the order of classes, none of them is a base
that `c` inherits from, and the first is no subclass of the second. -/
def Ambiguous (W : World) (c : Nat) : Prop :=
  W.registered c = false ∧ ∃ pre m t post, W.comp c = pre ++ m :: t :: post ∧ (∀ x ∈ pre, W.registered x = false) ∧
    W.registered m = true ∧ W.registered t = true ∧ m ∉ W.mro c ∧ t ∉ W.mro c ∧ W.sub m t = false

/-! ## Lemmas -/

mutual

theorem beq_iff : ∀ a b : Anno, Anno.beq a b = true ↔ a = b
  | .cls c, b => by cases b <;> simp [Anno.beq]
  | .gen c as, b => by cases b <;> simp [Anno.beq, beqs_iff as]
  | .any, b => by cases b <;> simp [Anno.beq]
  | .union a as, b => by cases b <;> simp [Anno.beq, beqs_iff as]
  | .lit vs, b => by cases b <;> simp [Anno.beq]
  | .free n, b => by cases b <;> simp [Anno.beq]
  | .bounded n t, b => by cases b <;> simp [Anno.beq, beq_iff t]
  | .constrained n t ts, b => by cases b <;> simp [Anno.beq, beq_iff t, beqs_iff ts, and_assoc]
  | .newType n t, b => by cases b <;> simp [Anno.beq, beq_iff t]
  | .named n t, b => by cases b <;> simp [Anno.beq, beq_iff t]
  | .special n, b => by cases b <;> simp [Anno.beq]

theorem beqs_iff : ∀ as bs : List Anno, Anno.beqs as bs = true ↔ as = bs
  | [], bs => by cases bs <;> simp [Anno.beqs]
  | a :: as, bs => by cases bs <;> simp [Anno.beqs, beq_iff a, beqs_iff as]

end

theorem mem_foldl (as acc : List Anno) (x : Anno) :
    x ∈ as.foldl (fun acc a => if acc.any (Anno.beq a) then acc else acc ++ [a]) acc ↔ x ∈ acc ∨ x ∈ as := by
  induction as generalizing acc with
  | nil => simp
  | cons a as ih =>
    rw [List.foldl_cons, ih]
    split
    · rename_i h
      obtain ⟨b, hb, e⟩ := List.any_eq_true.1 h
      rw [beq_iff] at e
      subst e
      constructor
      · rintro (h' | h')
        · exact .inl h'
        · exact .inr (List.mem_cons_of_mem _ h')
      · rintro (h' | h')
        · exact .inl h'
        · rcases List.mem_cons.1 h' with h' | h'
          · subst h'; exact .inl hb
          · exact .inr h'
    · simp [List.mem_append, List.mem_cons, or_assoc]

theorem mem_dedup (as : List Anno) (x : Anno) : x ∈ dedup as ↔ x ∈ as := by
  rw [dedup, mem_foldl]
  simp

theorem nodup_foldl (as acc : List Anno) (h : acc.Nodup) :
    (as.foldl (fun acc a => if acc.any (Anno.beq a) then acc else acc ++ [a]) acc).Nodup := by
  induction as generalizing acc with
  | nil => exact h
  | cons a as ih =>
    rw [List.foldl_cons]
    apply ih
    split
    · exact h
    · rename_i h'
      rw [List.nodup_append]
      refine ⟨h, by simp, ?_⟩
      intro b hb c hc e
      rw [List.mem_singleton] at hc
      subst hc
      exact h' (List.any_eq_true.2 ⟨b, hb, (beq_iff _ _).2 e.symm⟩)

/-- The members are merged to one if and only if they are all the same. -/
theorem dedup_single (as : List Anno) (u : Anno) : dedup as = [u] ↔ as ≠ [] ∧ ∀ a ∈ as, a = u := by
  constructor
  · intro h
    have hm : ∀ a, a ∈ as ↔ a = u := fun a => by rw [← mem_dedup, h, List.mem_singleton]
    refine ⟨?_, fun a ha => (hm a).1 ha⟩
    rintro rfl
    exact absurd ((hm u).2 rfl) (by simp)
  · rintro ⟨h, ha⟩
    have hn : (dedup as).Nodup := nodup_foldl as [] (by simp)
    have hm : ∀ x ∈ dedup as, x = u := fun x hx => ha x ((mem_dedup as x).1 hx)
    cases as with
    | nil => exact absurd rfl h
    | cons a as =>
      have hu : u ∈ dedup (a :: as) := (mem_dedup _ _).2 (by rw [ha a (by simp)]; simp)
      generalize dedup (a :: as) = l at *
      match l, hn, hm, hu with
      | [x], _, hm, _ => rw [hm x (by simp)]
      | x :: y :: l, hn, hm, _ =>
        have := hm x (by simp)
        have := hm y (by simp)
        simp_all

theorem mkUnion_single {b : Bool} {as : List Anno} {u : Anno} (h : dedup (as.flatMap members) = [u]) : mkUnion b as = u := by
  simp [mkUnion, h]

theorem mkUnion_many {b : Bool} {as : List Anno} (h : ∀ u, dedup (as.flatMap members) ≠ [u]) :
    mkUnion b as = .union b (dedup (as.flatMap members)) := by
  unfold mkUnion
  split
  · rename_i a e; exact absurd e (h a)
  · rfl

theorem members_cls (cs : List Nat) (f : Nat → Nat) : (cs.map fun v => Anno.cls (f v)).flatMap members = cs.map fun v => .cls (f v) := by
  induction cs with
  | nil => rfl
  | cons c cs ih => simp [members, ih]

/-- A value of a union is one of a member of it. -/
theorem described_mkUnion {W : World} {v : Nat} {b : Bool} {as : List Anno} {a : Anno} (ha : a ∈ as)
    (h : Described W v unsolved a) : Described W v unsolved (mkUnion b as) := by
  have hx : ∃ x ∈ members a, Described W v unsolved x := by
    cases h with
    | union hm hd => exact ⟨_, hm, hd⟩
    | cls h => exact ⟨_, List.mem_cons_self, .cls h⟩
    | gen h => exact ⟨_, List.mem_cons_self, .gen h⟩
    | any => exact ⟨_, List.mem_cons_self, .any⟩
    | lit h => exact ⟨_, List.mem_cons_self, .lit h⟩
    | free h => exact ⟨_, List.mem_cons_self, .free h⟩
    | free_solved h _ => cases h
    | bounded h h' => exact ⟨_, List.mem_cons_self, .bounded h h'⟩
    | bounded_solved h _ => cases h
    | constrained h h' h'' => exact ⟨_, List.mem_cons_self, .constrained h h' h''⟩
    | constrained_solved h _ => cases h
    | newType h => exact ⟨_, List.mem_cons_self, .newType h⟩
    | named h => exact ⟨_, List.mem_cons_self, .named h⟩
    | special => exact ⟨_, List.mem_cons_self, .special⟩
  obtain ⟨x, hx, hd⟩ := hx
  have hx' : x ∈ dedup (as.flatMap members) := (mem_dedup _ _).2 (List.mem_flatMap.2 ⟨a, ha, hx⟩)
  by_cases hu : ∃ u, dedup (as.flatMap members) = [u]
  · obtain ⟨u, hu⟩ := hu
    rw [mkUnion_single hu]
    rw [hu, List.mem_singleton] at hx'
    rw [← hx']
    exact hd
  · rw [mkUnion_many (fun u e => hu ⟨u, e⟩)]
    exact .union hx' hd

theorem hasVars_mem {as : List Anno} (h : hasVars as = false) : ∀ a ∈ as, hasVar a = false := by
  induction as with
  | nil => simp
  | cons b as ih =>
    simp only [hasVars, Bool.or_eq_false_iff] at h
    intro a ha
    rcases List.mem_cons.1 ha with rfl | ha
    · exact h.1
    · exact ih h.2 a ha

/-- What values are described by a type without variables does not depend on what variables stand for. -/
theorem described_closed {W : World} {v : Nat} {σ τ : Nat → Option Anno} {a : Anno} (h : Described W v σ a)
    (hc : hasVar a = false) : Described W v τ a := by
  induction h generalizing τ with
  | cls h => exact .cls h
  | gen h => exact .gen h
  | any => exact .any
  | union hm _ ih => exact .union hm (ih (hasVars_mem hc _ hm))
  | lit h => exact .lit h
  | newType h _ => exact .newType h
  | named h _ => exact .named h
  | special => exact .special
  | _ => simp [hasVar] at hc

theorem substitutes_mem {σ : Nat → Option Anno} {as : List Anno} {a : Anno} (h : a ∈ as) :
    substitute σ a ∈ substitutes σ as := by
  induction as with
  | nil => cases h
  | cons b as ih =>
    rcases List.mem_cons.1 h with rfl | h
    · simp [substitutes]
    · simp [substitutes, ih h]

/-- `substitute` keeps the values. -/
theorem described_substitute {W : World} {v : Nat} {σ : Nat → Option Anno} {a : Anno} (h : Described W v σ a) :
    Described W v unsolved (substitute σ a) := by
  induction h with
  | cls h => exact .cls h
  | gen h => exact .gen h
  | any => exact .any
  | @union σ b ms m hm hd ih =>
    simp only [substitute]
    split
    · exact described_mkUnion (substitutes_mem hm) ih
    · rename_i hv
      exact .union hm (described_closed hd (hasVars_mem (by simpa using hv) _ hm))
  | lit h => exact .lit h
  | free h => simp only [substitute, h]; exact .free rfl
  | free_solved h hd => simp only [substitute, h]; exact hd
  | bounded h hd => simp only [substitute, h]; exact .bounded rfl hd
  | bounded_solved h hd => simp only [substitute, h]; exact hd
  | constrained h hm hd => simp only [substitute, h]; exact .constrained rfl hm hd
  | constrained_solved h hd => simp only [substitute, h]; exact hd
  | newType h => exact .newType h
  | named h => exact .named h
  | special => exact .special

theorem described_typeRule {W : World} (hW : W.Ok) {v : Nat} {σ : Nat → Option Anno} {r : Ret} (h : RetDescribed W v σ r) :
    Described W v unsolved (typeRule W σ r) := by
  cases h with
  | empty => exact .cls (hW.top _)
  | none h => exact .cls (by rw [h]; exact hW.refl _)
  | anno h =>
    simp only [typeRule]
    split
    · exact described_substitute h
    · rename_i hv; exact described_closed h (by simpa using hv)
  | annotated h =>
    simp only [typeRule]
    split
    · exact described_substitute h
    · rename_i hv; exact described_closed h (by simpa using hv)

/-- The class of a literal type is that of all its values. -/
theorem ofLiteral_eq (W : World) (vs : List Nat) :
    (∃ v ws, vs = v :: ws ∧ (∀ w ∈ ws, W.classOf w = W.classOf v) ∧ ofLiteral W (.lit vs) = .cls (W.classOf v)) ∨
      (∃ ms, ofLiteral W (.lit vs) = .union true ms) ∧ ∀ v ws, vs = v :: ws → ∃ w ∈ ws, W.classOf w ≠ W.classOf v := by
  unfold ofLiteral
  by_cases hu : ∃ u, dedup ((vs.map fun v => Anno.cls (W.classOf v)).flatMap members) = [u]
  · obtain ⟨u, hu⟩ := hu
    have h := (dedup_single _ _).1 hu
    rw [members_cls] at h
    cases vs with
    | nil => simp at h
    | cons v ws =>
      have hv : Anno.cls (W.classOf v) = u := h.2 _ (by simp)
      refine .inl ⟨v, ws, rfl, ?_, ?_⟩
      · intro w hw
        have : Anno.cls (W.classOf w) = u := h.2 _ (List.mem_map.2 ⟨w, by simp [hw], rfl⟩)
        rw [← hv] at this
        exact Anno.cls.inj this
      · show mkUnion true _ = _
        rw [mkUnion_single hu, hv]
  · refine .inr ⟨⟨_, mkUnion_many (fun u e => hu ⟨u, e⟩)⟩, ?_⟩
    rintro v ws rfl
    apply Classical.byContradiction
    intro hn
    apply hu
    refine ⟨.cls (W.classOf v), (dedup_single _ _).2 ⟨by simp [members], ?_⟩⟩
    rw [members_cls]
    intro a ha
    obtain ⟨w, hw, rfl⟩ := List.mem_map.1 ha
    rcases List.mem_cons.1 hw with rfl | hw
    · rfl
    · apply Classical.byContradiction
      intro hne
      exact hn ⟨w, hw, fun e => hne (by rw [e])⟩

/-- `_simple_type` for a type that is no variable. -/
theorem simpleType_plain (W : World) {a : Anno} (h : ofVar W a = a) (c : Nat) : simpleType W a = .ok (some c) ↔ HasClass W a c := by
  unfold simpleType
  rw [h]
  cases a with
  | lit vs =>
    rcases ofLiteral_eq W vs with ⟨v, ws, rfl, hw, e⟩ | ⟨⟨ms, e⟩, hn⟩
    · rw [e]
      constructor
      · intro h; cases h; exact .lit hw
      · intro h; cases h; rfl
    · rw [e]
      constructor
      · intro h; cases h
      · intro h
        cases h with
        | lit hw => obtain ⟨w, hm, hne⟩ := hn _ _ rfl; exact absurd (hw w hm) hne
  | cls d => constructor
             · intro h; cases h; exact .cls _
             · intro h; cases h; rfl
  | gen d as => constructor
                · intro h; cases h; exact .gen _ _
                · intro h; cases h; rfl
  | any => constructor
           · intro h; cases h; exact .any
           · intro h; cases h; rfl
  | union b ms => cases b <;> exact ⟨fun h => (by cases h), fun h => (by cases h)⟩
  | free n => cases h
  | bounded n t => exact ⟨fun h => (by cases h), fun h => (by cases h)⟩
  | constrained n t ts => exact ⟨fun h => (by cases h), fun h => (by cases h)⟩
  | newType n t => exact ⟨fun h => (by cases h), fun h => (by cases h)⟩
  | named n t => exact ⟨fun h => (by cases h), fun h => (by cases h)⟩
  | special n => exact ⟨fun h => (by cases h), fun h => (by cases h)⟩

theorem simpleType_bounded {W : World} (n : Nat) {t : Anno} (h : ofVar W t = t) :
    simpleType W (.bounded n t) = simpleType W t := by
  have : ofVar W (.bounded n t) = t := rfl
  unfold simpleType
  rw [this, h]

theorem findImpl_some (W : World) (c m : Nat) (ts : List Nat) : findImpl W c ts (some m) = .ok (some m) ∨
    ∃ t post, ts = t :: post ∧ W.registered t = true ∧ t ∉ W.mro c ∧ m ∉ W.mro c ∧ W.sub m t = false ∧
      findImpl W c ts (some m) = .error .runtime := by
  cases ts with
  | nil => exact .inl rfl
  | cons t post =>
    simp only [findImpl]
    split
    · rename_i h
      simp only [Bool.and_eq_true, Bool.not_eq_true', List.contains_eq_mem, decide_eq_false_iff_not] at h
      exact .inr ⟨t, post, rfl, h.1.1.1, h.1.1.2, h.1.2, h.2, rfl⟩
    · exact .inl rfl

/-- The first registered class is found, unless it is ambiguous. -/
theorem findImpl_none (W : World) (c : Nat) (ts : List Nat) (h : ∃ t ∈ ts, W.registered t = true) :
    ∃ pre m post, ts = pre ++ m :: post ∧ (∀ x ∈ pre, W.registered x = false) ∧ W.registered m = true ∧
      findImpl W c ts none = findImpl W c post (some m) := by
  induction ts with
  | nil => simp at h
  | cons t ts ih =>
    by_cases ht : W.registered t = true
    · exact ⟨[], t, ts, rfl, by simp, ht, by simp [findImpl, ht]⟩
    · have h' : ∃ t ∈ ts, W.registered t = true := by
        obtain ⟨u, hu, hr⟩ := h
        rcases List.mem_cons.1 hu with rfl | hu
        · exact absurd hr ht
        · exact ⟨u, hu, hr⟩
      obtain ⟨pre, m, post, rfl, hp, hm, e⟩ := ih h'
      refine ⟨t :: pre, m, post, rfl, ?_, hm, ?_⟩
      · intro x hx
        rcases List.mem_cons.1 hx with rfl | hx
        · simpa using ht
        · exact hp x hx
      · rw [← e]; simp [findImpl, ht]

/-- Two ways to split a list at its first element with a property. -/
theorem split_first {p : Nat → Bool} {pre pre' post post' : List Nat} {m m' : Nat}
    (e : pre ++ m :: post = pre' ++ m' :: post') (h : ∀ x ∈ pre, p x = false) (h' : ∀ x ∈ pre', p x = false)
    (hm : p m = true) (hm' : p m' = true) : m = m' ∧ post = post' := by
  induction pre generalizing pre' with
  | nil =>
    cases pre' with
    | nil => simpa using e
    | cons y pre' =>
      simp only [List.nil_append, List.cons_append, List.cons.injEq] at e
      have := h' y (by simp)
      rw [← e.1, hm] at this
      cases this
  | cons x pre ih =>
    cases pre' with
    | nil =>
      simp only [List.nil_append, List.cons_append, List.cons.injEq] at e
      have := h x (by simp)
      rw [e.1, hm'] at this
      cases this
    | cons y pre' =>
      simp only [List.cons_append, List.cons.injEq] at e
      exact ih e.2 (fun z hz => h z (by simp [hz])) (fun z hz => h' z (by simp [hz]))

theorem dispatch_cases {W : World} (hW : W.Ok) (c : Nat) :
    (¬ Ambiguous W c ∧ ∃ d, dispatch W c = .ok (some d) ∧ W.registered d = true ∧ (d = c ∨ d ∈ W.comp c)) ∨
      Ambiguous W c ∧ dispatch W c = .error .runtime := by
  unfold dispatch
  by_cases hc : W.registered c = true
  · refine .inl ⟨fun h => ?_, c, by simp [hc], hc, .inl rfl⟩
    rw [h.1] at hc
    cases hc
  · obtain ⟨pre, m, post, e, hp, hm, hf⟩ := findImpl_none W c (W.comp c) ⟨_, hW.comp_object c, hW.object_reg⟩
    simp only [hc]
    rcases findImpl_some W c m post with h | ⟨t, post', rfl, ht, h1, h2, h3, h⟩
    · by_cases ha : Ambiguous W c
      · refine absurd ha ?_
        rintro ⟨_, pre', m', t', post', e', hp', hm', ht', h1, h2, h3⟩
        obtain ⟨rfl, rfl⟩ := split_first (e.symm.trans e') hp hp' hm hm'
        have : findImpl W c (t' :: post') (some m) = .error .runtime := by
          simp [findImpl, ht', h1, h2, h3]
        rw [this] at h
        cases h
      · exact .inl ⟨ha, m, by simpa [hf] using h, hm, .inr (by rw [e]; simp)⟩
    · refine .inr ⟨⟨by simpa using hc, pre, m, t, post', e, hp, hm, ht, h2, h1, h3⟩, ?_⟩
      simpa [hf] using h

mutual

theorem hasVar_iff : ∀ a : Anno, hasVar a = true ↔ Mentions a
  | .free n => ⟨fun _ => .free n, fun _ => rfl⟩
  | .bounded n t => ⟨fun _ => .bounded n t, fun _ => rfl⟩
  | .constrained n t ts => ⟨fun _ => .constrained n t ts, fun _ => rfl⟩
  | .gen c as => by
    rw [hasVar, hasVars_iff as]
    exact ⟨fun ⟨a, h, h'⟩ => .gen h h', fun h => by cases h with | gen h h' => exact ⟨_, h, h'⟩⟩
  | .union b ms => by
    rw [hasVar, hasVars_iff ms]
    exact ⟨fun ⟨a, h, h'⟩ => .union h h', fun h => by cases h with | union h h' => exact ⟨_, h, h'⟩⟩
  | .cls _ | .any | .lit _ | .newType _ _ | .named _ _ | .special _ =>
    ⟨fun h => (by cases h), fun h => (by cases h)⟩

theorem hasVars_iff : ∀ as : List Anno, hasVars as = true ↔ ∃ a ∈ as, Mentions a
  | [] => by simp [hasVars]
  | a :: as => by simp [hasVars, hasVar_iff a, hasVars_iff as]

end

theorem hasVar_false {a : Anno} (h : ¬ Mentions a) : hasVar a = false := by
  rw [← Bool.not_eq_true, hasVar_iff]; exact h

theorem hasVars_false {as : List Anno} (h : ¬ ∃ a ∈ as, Mentions a) : hasVars as = false := by
  rw [← Bool.not_eq_true, hasVars_iff]; exact h

/-- The class of the type of a call. -/
theorem simpleType_iff (W : World) (σ : Nat → Option Anno) (hσ : ∀ n t, σ n = some t → ¬ Mentions t) (r : Ret)
    (hr : ¬ r.unionVar) (c : Nat) : simpleType W (typeRule W σ r) = .ok (some c) ↔ RetClass W σ r c := by
  have key : ∀ a : Anno, (∀ b ms, a = .union b ms → hasVars ms = false) →
      (simpleType W (if hasVar a then substitute σ a else a) = .ok (some c) ↔ AnnoClass W σ a c) := by
    intro a hu
    have closed : ∀ t : Anno, hasVar t = false → ofVar W t = t := by
      intro t ht; cases t <;> simp_all [ofVar, hasVar]
    have bound : ∀ t : Anno, ∀ n, simpleType W (.bounded n t) = .ok (some c) ↔ HasClass W t c := by
      intro t n
      by_cases ht : ofVar W t = t
      · rw [← simpleType_plain W ht, simpleType_bounded n ht]
      · cases t <;> simp [ofVar] at ht <;>
          exact ⟨fun h => (by cases h), fun h => (by cases h)⟩
    cases a with
    | free n =>
      simp only [hasVar, if_true, substitute]
      cases hn : σ n with
      | none =>
        constructor
        · intro h; cases h; exact .free hn
        · intro h
          cases h with
          | free => rfl
          | free_solved e => rw [hn] at e; cases e
          | type h => cases h
      | some t =>
        rw [Option.getD_some, simpleType_plain W (closed t (hasVar_false (hσ n t hn)))]
        constructor
        · exact .free_solved hn
        · intro h
          cases h with
          | free e => rw [hn] at e; cases e
          | free_solved e h => rw [hn] at e; cases e; exact h
          | type h => cases h
    | bounded n b =>
      simp only [hasVar, if_true, substitute]
      cases hn : σ n with
      | none =>
        rw [Option.getD_none, bound]
        constructor
        · exact .bounded hn
        · intro h
          cases h with
          | bounded _ h => exact h
          | bounded_solved e => rw [hn] at e; cases e
          | type h => cases h
      | some t =>
        rw [Option.getD_some, simpleType_plain W (closed t (hasVar_false (hσ n t hn)))]
        constructor
        · exact .bounded_solved hn
        · intro h
          cases h with
          | bounded e => rw [hn] at e; cases e
          | bounded_solved e h => rw [hn] at e; cases e; exact h
          | type h => cases h
    | constrained n b bs =>
      simp only [hasVar, if_true, substitute]
      cases hn : σ n with
      | none =>
        rw [Option.getD_none]
        have : simpleType W (.constrained n b bs) = simpleType W (.bounded n b) := rfl
        rw [this, bound]
        constructor
        · exact .constrained hn
        · intro h
          cases h with
          | constrained _ h => exact h
          | constrained_solved e => rw [hn] at e; cases e
          | type h => cases h
      | some t =>
        rw [Option.getD_some, simpleType_plain W (closed t (hasVar_false (hσ n t hn)))]
        constructor
        · exact .constrained_solved hn
        · intro h
          cases h with
          | constrained e => rw [hn] at e; cases e
          | constrained_solved e h => rw [hn] at e; cases e; exact h
          | type h => cases h
    | gen d as =>
      have : simpleType W (if hasVar (.gen d as) then substitute σ (.gen d as) else .gen d as) = .ok (some d) := by
        split <;> rfl
      rw [this]
      constructor
      · intro h; cases h; exact .type (.gen _ _)
      · intro h; cases h with | type h => cases h; rfl
    | union b ms =>
      have hv : hasVar (.union b ms) = false := hu b ms rfl
      rw [hv]
      simp only [Bool.false_eq_true, if_false]
      rw [simpleType_plain W rfl]
      exact ⟨.type, fun h => by cases h with | type h => exact h⟩
    | cls d =>
      simp only [hasVar, Bool.false_eq_true, if_false]
      rw [simpleType_plain W rfl]
      exact ⟨.type, fun h => by cases h with | type h => exact h⟩
    | any =>
      simp only [hasVar, Bool.false_eq_true, if_false]
      rw [simpleType_plain W rfl]
      exact ⟨.type, fun h => by cases h with | type h => exact h⟩
    | lit vs =>
      simp only [hasVar, Bool.false_eq_true, if_false]
      rw [simpleType_plain W rfl]
      exact ⟨.type, fun h => by cases h with | type h => exact h⟩
    | newType n t =>
      simp only [hasVar, Bool.false_eq_true, if_false]
      rw [simpleType_plain W rfl]
      exact ⟨.type, fun h => by cases h with | type h => exact h⟩
    | named n t =>
      simp only [hasVar, Bool.false_eq_true, if_false]
      rw [simpleType_plain W rfl]
      exact ⟨.type, fun h => by cases h with | type h => exact h⟩
    | special n =>
      simp only [hasVar, Bool.false_eq_true, if_false]
      rw [simpleType_plain W rfl]
      exact ⟨.type, fun h => by cases h with | type h => exact h⟩
  cases r with
  | empty =>
    constructor
    · intro h; cases h; exact .empty
    · intro h; cases h; rfl
  | none =>
    constructor
    · intro h; cases h; exact .none
    · intro h; cases h; rfl
  | anno a =>
    have := key a (fun b ms e => by subst e; exact hasVars_false hr)
    simp only [typeRule]
    rw [this]
    exact ⟨.anno, fun h => by cases h with | anno h => exact h⟩
  | annotated a =>
    have := key a (fun b ms e => by subst e; exact hasVars_false hr)
    simp only [typeRule]
    rw [this]
    exact ⟨.annotated, fun h => by cases h with | annotated h => exact h⟩

theorem termClass_some {W : World} {σ : Nat → Option Anno} {r : Ret} {c : Nat}
    (h : simpleType W (typeRule W σ r) = .ok (some c)) : termClass W σ r = dispatch W c := by
  simp [termClass, h, bind, Except.bind]

theorem termClass_ok {W : World} {σ : Nat → Option Anno} {r : Ret} {d : Option Nat} (h : termClass W σ r = .ok d) :
    ∃ c, simpleType W (typeRule W σ r) = .ok (some c) := by
  unfold termClass at h
  cases hs : simpleType W (typeRule W σ r) with
  | error e => rw [hs] at h; cases h
  | ok o =>
    cases o with
    | none => rw [hs] at h; cases h
    | some c => exact ⟨c, rfl⟩

/-! ## Theorems -/

/-- A call gives a term exactly if the annotation of its result stands for a class, and no two registered classes are equally
near to that class. -/
theorem C103_term_iff {W : World} (hW : W.Ok) (σ : Nat → Option Anno) (hσ : ∀ n t, σ n = some t → ¬ Mentions t) (r : Ret)
    (hr : ¬ r.unionVar) : (∃ d, termClass W σ r = .ok d) ↔ ∃ c, RetClass W σ r c ∧ ¬ Ambiguous W c := by
  constructor
  · rintro ⟨d, h⟩
    obtain ⟨c, hc⟩ := termClass_ok h
    refine ⟨c, (simpleType_iff W σ hσ r hr c).1 hc, fun ha => ?_⟩
    rw [termClass_some hc] at h
    rcases dispatch_cases hW c with ⟨hn, _⟩ | ⟨_, e⟩
    · exact hn ha
    · rw [e] at h; cases h
  · rintro ⟨c, hc, ha⟩
    rw [termClass_some ((simpleType_iff W σ hσ r hr c).2 hc)]
    rcases dispatch_cases hW c with ⟨_, d, e, _⟩ | ⟨hn, _⟩
    · exact ⟨some d, e⟩
    · exact absurd hn ha

/-- The class of a term is the first registered class in the order of classes of the annotated one. -/
theorem C103_nearest {W : World} (hW : W.Ok) (σ : Nat → Option Anno) (hσ : ∀ n t, σ n = some t → ¬ Mentions t) (r : Ret)
    (hr : ¬ r.unionVar) {c d : Nat} (hc : RetClass W σ r c) (h : termClass W σ r = .ok (some d)) :
    W.registered d = true ∧ (d = c ∨ W.registered c = false ∧ ∃ pre post, W.comp c = pre ++ d :: post ∧
      ∀ x ∈ pre, W.registered x = false) := by
  rw [termClass_some ((simpleType_iff W σ hσ r hr c).2 hc)] at h
  unfold dispatch at h
  by_cases hreg : W.registered c = true
  · rw [if_pos hreg] at h
    cases h
    exact ⟨hreg, .inl rfl⟩
  · rw [if_neg hreg] at h
    obtain ⟨pre, m, post, e, hp, hm, hf⟩ := findImpl_none W c (W.comp c) ⟨_, hW.comp_object c, hW.object_reg⟩
    rw [hf] at h
    rcases findImpl_some W c m post with h' | ⟨t, post', _, _, _, _, _, h'⟩
    · rw [h'] at h
      cases h
      exact ⟨hm, .inr ⟨by simpa using hreg, pre, post, e, hp⟩⟩
    · rw [h'] at h; cases h

/-- The class of a term is a registered class, and every value that the annotation describes is an instance of it, unless the
type of the call is a type variable with constraints. -/
theorem C103_class_partial {W : World} (hW : W.Ok) (σ : Nat → Option Anno) (r : Ret)
    (hr : ∀ n t ts, typeRule W σ r ≠ .constrained n t ts) {d : Option Nat} (h : termClass W σ r = .ok d) :
    ∃ e, d = some e ∧ W.registered e = true ∧ ∀ v, RetDescribed W v σ r → W.sub (W.classOf v) e = true := by
  obtain ⟨c, hc⟩ := termClass_ok h
  rw [termClass_some hc] at h
  rcases dispatch_cases hW c with ⟨_, e, he, hreg, hmem⟩ | ⟨_, he⟩
  · rw [he] at h
    cases h
    refine ⟨e, rfl, hreg, fun v hv => ?_⟩
    have hce : W.sub c e = true := by
      rcases hmem with rfl | hmem
      · exact hW.refl _
      · exact hW.comp_sub _ _ hmem
    have hany : c = W.anyCls → W.sub (W.classOf v) e = true := by
      rintro rfl
      rcases hmem with rfl | hmem
      · rw [hW.any_reg] at hreg; cases hreg
      · rw [hW.any_comp] at hmem
        rcases List.mem_cons.1 hmem with rfl | hmem
        · rw [hW.any_reg] at hreg; cases hreg
        · rw [List.mem_singleton] at hmem
          rw [hmem]
          exact hW.top _
    have plain : ∀ a : Anno, HasClass W a c → Described W v unsolved a → W.sub (W.classOf v) e = true := by
      intro a ha hd
      cases ha with
      | cls => cases hd with | cls h => exact hW.trans _ _ _ h hce
      | gen => cases hd with | gen h => exact hW.trans _ _ _ h hce
      | any => exact hany rfl
      | @lit w ws hw =>
        cases hd with
        | lit hm =>
          rcases List.mem_cons.1 hm with rfl | hm
          · exact hce
          · rw [hw v hm]; exact hce
    have hd := described_typeRule hW hv
    generalize typeRule W σ r = a at hc hr hd
    by_cases hov : ofVar W a = a
    · exact plain a ((simpleType_plain W hov c).1 hc) hd
    · cases a with
      | free n => cases hc; exact hW.trans _ _ _ (hW.top _) hce
      | bounded n t =>
        cases hd with
        | bounded_solved h => cases h
        | bounded _ hd =>
          by_cases ht : ofVar W t = t
          · refine plain t ((simpleType_plain W ht c).1 ?_) hd
            rw [← hc, simpleType_bounded n ht]
          · cases t <;> simp [ofVar] at ht <;> cases hc
      | constrained n t ts => exact absurd rfl (hr n t ts)
      | _ => exact absurd rfl hov
  · rw [he] at h; cases h

/-- `typeof` of a term is a class, and a subclass of the class the term is registered for. -/
theorem C103_typeof {W : World} (hW : W.Ok) (σ : Nat → Option Anno) (r : Ret) {d : Nat} (h : termClass W σ r = .ok (some d)) :
    ∃ c, typeof W σ r = .ok (some c) ∧ W.sub c d = true := by
  obtain ⟨c, hc⟩ := termClass_ok h
  refine ⟨c, hc, ?_⟩
  rw [termClass_some hc] at h
  rcases dispatch_cases hW c with ⟨_, e, he, _, hmem⟩ | ⟨_, he⟩
  · rw [he] at h
    cases h
    rcases hmem with rfl | hmem
    · exact hW.refl _
    · exact hW.comp_sub _ _ hmem
  · rw [he] at h; cases h

/-- A result annotated with a union never gives a term: `int | str` is rejected with a TypeError, `Optional[int]` and other
instances of `typing.Union` with the error of `dispatch`. -/
theorem C103_union_fails (W : World) (σ : Nat → Option Anno) (ms : List Anno) (h : ∀ m ∈ ms, ¬ Mentions m) :
    termClass W σ (.anno (.union true ms)) = .error .type ∧ termClass W σ (.anno (.union false ms)) = .error .noClass := by
  have h := hasVars_false (as := ms) (fun ⟨m, hm, h'⟩ => h m hm h')
  constructor <;> simp [termClass, typeRule, hasVar, h, simpleType, ofVar, ofLiteral, bind, Except.bind]

/-- Nor does one that is annotated with a name for a type: `NewType`, `type A = …`, or with another special form. -/
theorem C103_named_fails (W : World) (σ : Nat → Option Anno) (n : Nat) (t : Anno) :
    termClass W σ (.anno (.newType n t)) = .error .noClass ∧ termClass W σ (.anno (.named n t)) = .error .noClass ∧
      termClass W σ (.anno (.special n)) = .error .noClass := by
  refine ⟨?_, ?_, ?_⟩ <;> rfl

/-- The type that a member of a union of classes and type variables stands for. -/
inductive StandsFor (σ : Nat → Option Anno) : Anno → Nat → Prop
  | cls (c) : StandsFor σ (.cls c) c
  | free {n c} : σ n = some (.cls c) → StandsFor σ (.free n) c
  | bounded {n t c} : σ n = some (.cls c) → StandsFor σ (.bounded n t) c
  | constrained {n t ts c} : σ n = some (.cls c) → StandsFor σ (.constrained n t ts) c

theorem standsFor_substitute {σ : Nat → Option Anno} {a : Anno} {c : Nat} (h : StandsFor σ a c) : substitute σ a = .cls c := by
  cases h with
  | cls => rfl
  | free h => simp [substitute, h]
  | bounded h => simp [substitute, h]
  | constrained h => simp [substitute, h]

/-- A union with a type variable, where all members stand for classes, gives a term exactly if all these classes are one, and
no two registered classes are equally near to it. So whether a call gives a term depends on the arguments. -/
theorem C103_union_var {W : World} (hW : W.Ok) (σ : Nat → Option Anno) (b : Bool) (m : Anno) (ms : List Anno) (c : Nat)
    (cs : List Nat) (hm : StandsFor σ m c) (hms : ms.length = cs.length)
    (hst : ∀ i (h : i < ms.length) (h' : i < cs.length), StandsFor σ ms[i] cs[i]) (hv : ∃ a ∈ m :: ms, Mentions a) :
    (∃ d, termClass W σ (.anno (.union b (m :: ms))) = .ok d) ↔ (∀ x ∈ cs, x = c) ∧ ¬ Ambiguous W c := by
  rw [← hasVars_iff] at hv
  have hsub : ∀ (ms : List Anno) (cs : List Nat), ms.length = cs.length →
      (∀ i (h : i < ms.length) (h' : i < cs.length), StandsFor σ ms[i] cs[i]) → substitutes σ ms = cs.map .cls := by
    intro ms
    induction ms with
    | nil => intro cs hl _; cases cs with
      | nil => rfl
      | cons => simp at hl
    | cons a as ih =>
      intro cs hl hs
      cases cs with
      | nil => simp at hl
      | cons d ds =>
        have h0 := hs 0 (by simp) (by simp)
        simp only [List.getElem_cons_zero] at h0
        simp only [substitutes, List.map_cons, standsFor_substitute h0]
        rw [ih ds (by simpa using hl) (fun i h h' => by
          have := hs (i + 1) (by simpa using h) (by simpa using h')
          simpa using this)]
  have hS : substitutes σ (m :: ms) = (c :: cs).map .cls := by
    simp only [substitutes, List.map_cons, standsFor_substitute hm, hsub ms cs hms hst]
  have hM : ((c :: cs).map Anno.cls).flatMap members = (c :: cs).map .cls := members_cls (c :: cs) id
  have ht : typeRule W σ (.anno (.union b (m :: ms))) = mkUnion b ((c :: cs).map .cls) := by
    have hv' : hasVar (.union b (m :: ms)) = true := hv
    simp only [typeRule, hv', if_true, substitute, hv, hS]
  by_cases hu : ∀ x ∈ cs, x = c
  · have hd : dedup (((c :: cs).map Anno.cls).flatMap members) = [.cls c] := by
      rw [hM, dedup_single]
      refine ⟨by simp, fun a ha => ?_⟩
      obtain ⟨x, hx, rfl⟩ := List.mem_map.1 ha
      rcases List.mem_cons.1 hx with rfl | hx
      · rfl
      · rw [hu x hx]
    have hs : simpleType W (typeRule W σ (.anno (.union b (m :: ms)))) = .ok (some c) := by
      rw [ht, mkUnion_single hd]; rfl
    rw [termClass_some hs]
    rcases dispatch_cases hW c with ⟨hn, d, e, _⟩ | ⟨ha, e⟩
    · exact ⟨fun _ => ⟨hu, hn⟩, fun _ => ⟨_, e⟩⟩
    · rw [e]
      exact ⟨fun ⟨_, h⟩ => (by cases h), fun h => absurd ha h.2⟩
  · refine ⟨fun ⟨d, h⟩ => ?_, fun h => absurd h.1 hu⟩
    exfalso
    have hd : ∀ u, dedup (((c :: cs).map Anno.cls).flatMap members) ≠ [u] := by
      intro u e
      rw [hM, dedup_single] at e
      apply hu
      intro x hx
      have h1 := e.2 (.cls x) (List.mem_map.2 ⟨x, by simp [hx], rfl⟩)
      have h2 := e.2 (.cls c) (List.mem_map.2 ⟨c, by simp, rfl⟩)
      rw [← h2] at h1
      exact Anno.cls.inj h1
    obtain ⟨k, hk⟩ := termClass_ok h
    rw [ht, mkUnion_many hd] at hk
    cases b <;> cases hk

/-! ## Witnesses

Classes: 0 `object`, 1 `NoneType`, 2 `Any`, 3 `int`, 4 `str`, 5 `Callable`, 6 `Iterable`, 7 a class with `__call__` and `__iter__`
that inherits from neither of them, 8 a class like it that inherits from `Callable`, 9 `Integral`, 10 `bool`. Values: 0 is `0`, 1
is `"a"`, 2 is `None`, 3 is `True`, 4 is `1`. -/

def exSub : Nat → List Nat
  | 3 => [3, 9, 0]
  | 4 => [4, 6, 0]
  | 5 => [5, 0]
  | 6 => [6, 0]
  | 7 => [7, 5, 6, 0]
  | 8 => [8, 5, 6, 0]
  | 9 => [9, 0]
  | 10 => [10, 3, 9, 0]
  | 0 => [0]
  | n => [n, 0]

def exW : World where
  object := 0
  noneType := 1
  anyCls := 2
  classOf
    | 0 | 4 => 3
    | 1 => 4
    | 2 => 1
    | 3 => 10
    | _ => 0
  sub c d := (exSub c).contains d
  mro
    | 8 => [8, 5, 0]
    | 10 => [10, 3, 0]
    | 0 => [0]
    | n => [n, 0]
  comp := exSub
  registered c := [0, 5, 6, 9, 10].contains c

theorem exSub_mem (c d : Nat) : d ∈ exSub c ↔ d = 0 ∨ d = c ∨ (c = 3 ∧ d = 9) ∨ (c = 4 ∧ d = 6) ∨ (c = 7 ∧ (d = 5 ∨ d = 6)) ∨
    (c = 8 ∧ (d = 5 ∨ d = 6)) ∨ (c = 10 ∧ (d = 3 ∨ d = 9)) := by
  unfold exSub
  split <;> simp only [List.mem_cons, List.not_mem_nil, or_false] <;> constructor <;> intro h <;>
    simp_all <;> omega

/-- The assumptions about classes can be met. -/
theorem exW_ok : exW.Ok where
  top c := by simp [exW, exSub_mem]
  refl c := by simp [exW, exSub_mem]
  trans c d e := by
    simp only [exW, List.contains_eq_mem, decide_eq_true_eq, exSub_mem]
    omega
  comp_sub c d h := by simpa [exW] using h
  comp_object c := by simp [exW, exSub_mem]
  object_reg := by decide
  any_reg := by decide
  any_comp := rfl

-- `-> int`: a term of `Integral`; no annotation, `-> None`, `-> list[int]`-like aliases, `-> Any`, `-> Annotated[int, …]`
example : termClass exW unsolved (.anno (.cls 3)) = .ok (some 9) := rfl
example : termClass exW unsolved .empty = .ok (some 0) := rfl
example : termClass exW unsolved .none = .ok (some 0) := rfl
example : termClass exW unsolved (.anno (.gen 6 [.cls 3])) = .ok (some 6) := rfl
example : termClass exW unsolved (.anno .any) = .ok (some 0) := rfl
example : termClass exW unsolved (.annotated (.cls 4)) = .ok (some 6) := rfl
-- `-> bool` and `-> Literal[0, 1]`, and a variable that stands for `int`, or has the bound `int`
example : termClass exW unsolved (.anno (.cls 10)) = .ok (some 10) := rfl
example : termClass exW unsolved (.anno (.lit [0, 4])) = .ok (some 9) := rfl
example : termClass exW (fun _ => some (.cls 3)) (.anno (.free 0)) = .ok (some 9) := rfl
example : termClass exW unsolved (.anno (.bounded 0 (.cls 3))) = .ok (some 9) := rfl
example : RetClass exW unsolved (.anno (.lit [0, 4])) 3 := .anno (.type (.lit (by decide)))
example : ¬ Ambiguous exW 3 := by
  intro h
  have := (C103_term_iff exW_ok unsolved (by simp [unsolved]) (.anno (.cls 3)) (by simp [Ret.unionVar])).1 ⟨_, rfl⟩
  obtain ⟨c, hc, ha⟩ := this
  cases hc with | anno hc => cases hc with | type hc => cases hc; exact ha h
example : RetDescribed exW 3 unsolved (.anno (.cls 3)) := .anno (.cls rfl)

/-- `Optional[int]` describes the value `0` and `None`, but a call never gives a term; the same with `int | None`, a `NewType` of
`int`, `type A = int`, and `Literal[0, True]`, whose values are all instances of `int`. -/
theorem C103_int_fails :
    RetDescribed exW 0 unsolved (.anno (.union false [.cls 3, .cls 1])) ∧
      termClass exW unsolved (.anno (.union false [.cls 3, .cls 1])) = .error .noClass ∧
      termClass exW unsolved (.anno (.union true [.cls 3, .cls 1])) = .error .type ∧
      RetDescribed exW 0 unsolved (.anno (.newType 0 (.cls 3))) ∧
      termClass exW unsolved (.anno (.newType 0 (.cls 3))) = .error .noClass ∧
      termClass exW unsolved (.anno (.named 0 (.cls 3))) = .error .noClass ∧
      termClass exW unsolved (.anno (.lit [0, 3])) = .error .type ∧
      (∀ v, RetDescribed exW v unsolved (.anno (.lit [0, 3])) → exW.sub (exW.classOf v) 3 = true) := by
  refine ⟨.anno (.union (m := .cls 3) (by simp) (.cls rfl)), rfl, rfl, .anno (.newType (.cls rfl)), rfl, rfl, rfl, ?_⟩
  intro v h
  cases h with
  | anno h =>
    cases h with
    | lit h =>
      rcases List.mem_cons.1 h with rfl | h
      · rfl
      · rw [List.mem_singleton] at h; subst h; rfl

/-- With `def f[T](x: T) -> T | int`, a call with an `int` gives a term, and one with a `str` an error: a term `f(x())`
cannot be evaluated where `x()` becomes a string. -/
theorem C103_argument_fails :
    termClass exW (fun _ => some (.cls 3)) (.anno (.union false [.free 0, .cls 3])) = .ok (some 9) ∧
      termClass exW (fun _ => some (.cls 4)) (.anno (.union false [.free 0, .cls 3])) = .error .noClass := ⟨rfl, rfl⟩

/-- With `def f[T: (int, str)]() -> T`, the term is one of the first constraint, and the string `"a"` is no instance of its
class. -/
theorem C103_constraint_fails :
    termClass exW unsolved (.anno (.constrained 0 (.cls 3) [.cls 4])) = .ok (some 9) ∧
      RetDescribed exW 1 unsolved (.anno (.constrained 0 (.cls 3) [.cls 4])) ∧ exW.sub (exW.classOf 1) 9 = false :=
  ⟨rfl, .anno (.constrained rfl (u := .cls 4) (by simp) (.cls rfl)), rfl⟩

/-- A class with `__call__` and `__iter__` that inherits neither from `Callable` nor from `Iterable` gives a RuntimeError; if it
inherits from `Callable` the term is one of `Callable`. -/
theorem C103_ambiguous_fails :
    termClass exW unsolved (.anno (.cls 7)) = .error .runtime ∧ Ambiguous exW 7 ∧
      termClass exW unsolved (.anno (.cls 8)) = .ok (some 5) :=
  ⟨rfl, ⟨rfl, [7], 5, 6, [0], rfl, by decide, rfl, rfl, by decide, by decide, rfl⟩, rfl⟩

-- the assumptions of `C103_union_var`, for `T | int` with `T` an `int`
example : StandsFor (fun _ => some (.cls 3)) (.free 0) 3 ∧ StandsFor (fun _ => some (.cls 3)) (.cls 3) 3 ∧
    ∃ a ∈ [Anno.free 0, .cls 3], Mentions a := ⟨.free rfl, .cls _, _, List.mem_cons_self, .free 0⟩

-- types with and without variables
example : Mentions (.gen 6 [.cls 3, .union true [.cls 4, .free 0]]) :=
  .gen (a := .union true [.cls 4, .free 0]) (by simp) (.union (m := .free 0) (by simp) (.free 0))
example : ∀ m ∈ [Anno.cls 3, .gen 6 [.cls 4]], ¬ Mentions m := by
  intro m hm h
  simp only [List.mem_cons, List.not_mem_nil, or_false] at hm
  rcases hm with rfl | rfl
  · cases h
  · cases h with
    | gen h h' => rw [List.mem_singleton] at h; subst h; cases h'

end Verif.Unify.ResultTypes
