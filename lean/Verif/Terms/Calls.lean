/-!
# The arguments of a term

Model of what `defdata` (`ops/syntax.py` 493, 533-547) and `Operation.__fvs_rule__` (`ops/types.py` 414-451) make of the arguments of a
call: `inspect.Signature.bind`, `BoundArguments.apply_defaults`, `.args` and `.kwargs` for all kinds of parameters, and of the
functions that a call of an operation without a handler passes its keyword arguments through.
-/

namespace Verif.Terms.Calls

variable {V W : Type}

/-! ## Signatures -/

/-- `inspect.Parameter.kind`. -/
inductive Kind where
  | posOnly | posKw | varPos | kwOnly | varKw
  deriving DecidableEq, Repr

/-- Their order in a signature. -/
def Kind.rank : Kind → Nat
  | .posOnly => 0
  | .posKw => 1
  | .varPos => 2
  | .kwOnly => 3
  | .varKw => 4

/-- A parameter and its default. -/
structure Param (V : Type) where
  kind : Kind
  name : String
  dflt : Option V

/-- A value in `BoundArguments.arguments`: of a parameter for one argument, of `*args`, of `**kwargs`. -/
inductive Arg (V : Type) where
  | one (v : V)
  | many (vs : List V)
  | dict (ks : List (String × V))

/-- `arguments`, in the order of the parameters: `none` if there is no entry. Their names differ, so this is a dictionary. -/
abbrev Bound (V : Type) := List (Param V × Option (Arg V))

/-- `kwargs` without a key. -/
def without (n : String) (ks : List (String × V)) : List (String × V) := ks.filter fun k => k.1 != n

/-- `n in kwargs`. -/
def has (n : String) (ks : List (String × V)) : Bool := (ks.lookup n).isSome

/-- `sig.bind(*as, **ks)`; `none` is `TypeError`. The two loops of `Signature._bind` are one here: both treat a parameter that is not
given by position in the same way. With `old` a keyword with the name of a positional-only parameter that is not given raises even
if there is a `**kwargs` to take it, as in Python before 3.13. -/
def bind (old : Bool) : List (Param V) → List V → List (String × V) → Option (Bound V)
  | [], [], [] => some []
  | [], _, _ => none
  | p :: ps, as, ks =>
    match p.kind with
    | .posOnly =>
      match as with
      | a :: as => (bind old ps as ks).map ((p, some (.one a)) :: ·)
      | [] =>
        if old && has p.name ks then none
        else if p.dflt.isSome then (bind old ps [] ks).map ((p, none) :: ·) else none
    | .posKw =>
      match as, ks.lookup p.name with
      | _ :: _, some _ => none
      | a :: as, none => (bind old ps as ks).map ((p, some (.one a)) :: ·)
      | [], some v => (bind old ps [] (without p.name ks)).map ((p, some (.one v)) :: ·)
      | [], none => if p.dflt.isSome then (bind old ps [] ks).map ((p, none) :: ·) else none
    | .varPos => (bind old ps [] ks).map ((p, if as.isEmpty then none else some (.many as)) :: ·)
    | .kwOnly =>
      match as, ks.lookup p.name with
      | _ :: _, _ => none
      | [], some v => (bind old ps [] (without p.name ks)).map ((p, some (.one v)) :: ·)
      | [], none => if p.dflt.isSome then (bind old ps [] ks).map ((p, none) :: ·) else none
    | .varKw =>
      match as with
      | _ :: _ => none
      | [] => (bind old ps [] []).map ((p, if ks.isEmpty then none else some (.dict ks)) :: ·)

/-- The entry that `apply_defaults` makes for a parameter. -/
def fillOne (p : Param V) (x : Option (Arg V)) : Option (Arg V) :=
  match x with
  | some a => some a
  | none =>
    match p.dflt with
    | some d => some (.one d)
    | none =>
      match p.kind with
      | .varPos => some (.many [])
      | .varKw => some (.dict [])
      | _ => none

/-- `apply_defaults()`. -/
def fill (b : Bound V) : Bound V := b.map fun x => (x.1, fillOne x.1 x.2)

/-- `BoundArguments.args`. -/
def argsOf : Bound V → List V
  | [] => []
  | (p, x) :: b =>
    match p.kind with
    | .varKw | .kwOnly => []
    | _ =>
      match x with
      | none => []
      | some (.one v) => v :: argsOf b
      | some (.many vs) => vs ++ argsOf b
      | some (.dict _) => argsOf b

/-- `BoundArguments.kwargs`, where `st` is `kwargs_started`. The dictionary of `**kwargs` has no key of another keyword. -/
def kwargsOf : Bool → Bound V → List (String × V)
  | _, [] => []
  | st, (p, x) :: b =>
    let st' := st || p.kind = .varKw || p.kind = .kwOnly
    if st' then
      match x with
      | none => kwargsOf true b
      | some (.one v) => (p.name, v) :: kwargsOf true b
      | some (.dict d) => d ++ kwargsOf true b
      | some (.many _) => kwargsOf true b
    else kwargsOf x.isNone b

/-- The arguments of the term for the call `op(*as, **ks)` (`ops/syntax.py` 533-543), before renaming. -/
def norm (old : Bool) (ps : List (Param V)) (as : List V) (ks : List (String × V)) : Option (List V × List (String × V)) :=
  (bind old ps as ks).map fun b => (argsOf (fill b), kwargsOf false (fill b))

/-! ## The sets of bound variables -/

/-- `result_sig` (`ops/types.py` 432-449): `g p` is the set of `analyze` for a parameter with a `Scoped` annotation, `e` the empty
set. -/
def overwrite (g : Param V → Option W) (b : Bound V) (r : Bound W) : Bound W :=
  (b.zip r).map fun x =>
    match g x.1.1 with
    | none => x.2
    | some w =>
      match x.1.1.kind, x.1.2 with
      | .varPos, some (.many vs) => (x.2.1, some (.many (vs.map fun _ => w)))
      | .varKw, some (.dict d) =>
        match x.2.2 with
        | some (.dict r) => (x.2.1, some (.dict (r.map fun k => if has k.1 d then (k.1, w) else k)))
        | r => (x.2.1, r)
      | _, _ => (x.2.1, some (.one w))

/-- The parameters with sets in place of values. -/
def setParam (e : W) (p : Param V) : Param W := ⟨p.kind, p.name, p.dflt.map fun _ => e⟩

/-- `__fvs_rule__(*as, **ks)`: `bindings.args` and `bindings.kwargs`. -/
def bindings (old : Bool) (ps : List (Param V)) (g : Param V → Option W) (e : W) (as : List V) (ks : List (String × V)) :
    Option (List W × List (String × W)) :=
  match bind old ps as ks with
  | none => none
  | some b =>
    let b := fill b
    (bind old (ps.map (setParam e)) ((argsOf b).map fun _ => e) ((kwargsOf false b).map fun k => (k.1, e))).map fun r =>
      (argsOf (overwrite g b r), kwargsOf false (overwrite g b r))

/-! ## Names that cannot be keywords -/

/-- The parameters of the functions through which a call without a handler passes its arguments: `Operation.__call__(self, …)`,
`__apply__(op, …)`, `__default_rule__(self, …)`, `_CustomSingleDispatchCallable.__call__(self, …)`, `defdata(__dispatch, op, …)`,
`__fvs_rule__(self, …)` (`ops/types.py` 507, 546, 362, 41, 415; `ops/syntax.py` 430-435). -/
def outer : List String := ["self", "op", "__dispatch"]

/-- Those through which the arguments of the term pass: `Operation.__call__(self, …)`, `product_op(op, …)`,
`CallByNeed.__init__(self, func, …)`, `apply_type(op, …)`, `__type_rule__(self, …)`, `apply_cast(op, …)`, and the function or class
registered for the type `(ty, op, …)`, `(self, ty, op, …)` (`internals/product_n.py` 25, 135; `ops/syntax.py` 504-515, 571-573,
664). -/
def inner : List String := ["self", "op", "func", "ty"]

/-- None of the names is a keyword. -/
def free (names : List String) (ks : List (String × V)) : Bool := names.all fun n => !has n ks

/-- The call `op(*as, **ks)` of an operation without a handler whose default raises `NotHandled`: the arguments of its term. -/
def callTerm (old : Bool) (ps : List (Param V)) (as : List V) (ks : List (String × V)) : Option (List V × List (String × V)) :=
  if free outer ks then
    match norm old ps as ks with
    | none => none
    | some r => if free inner r.2 then some r else none
  else none

/-! ## Specification -/

/-- Signatures: parameters in the order of their kinds, at most one `*args` and one `**kwargs`, without defaults for these, and
different names. -/
structure Wf (ps : List (Param V)) : Prop where
  order : ps.Pairwise fun p q => p.kind.rank < q.kind.rank ∨ p.kind = q.kind ∧ p.kind ≠ .varPos ∧ p.kind ≠ .varKw
  vars : ∀ p ∈ ps, p.kind = .varPos ∨ p.kind = .varKw → p.dflt = none
  names : (ps.map (·.name)).Nodup

/-- A parameter that can be given by keyword. -/
def named (p : Param V) : Bool := p.kind = .posKw || p.kind = .kwOnly

/-- A parameter for one positional argument. -/
def positional (p : Param V) : Bool := p.kind = .posOnly || p.kind = .posKw

/-- The value of the parameter `p` at position `i` in the call `(*as, **ks)` of a function with the parameters `ps`: the positional
argument at this position, or the keyword argument with its name, or its default; for `*args` the positional arguments from this
position on, and for `**kwargs` the keyword arguments that are for no other parameter. -/
def value (ps : List (Param V)) (as : List V) (ks : List (String × V)) (i : Nat) (p : Param V) : Option (Arg V) :=
  match p.kind with
  | .posOnly => (as[i]?.or p.dflt).map .one
  | .posKw => ((as[i]?.or (ks.lookup p.name)).or p.dflt).map .one
  | .varPos => some (.many (as.drop i))
  | .kwOnly => ((ks.lookup p.name).or p.dflt).map .one
  | .varKw => some (.dict (ks.filter fun k => !ps.any fun q => named q && q.name == k.1))

/-- The call `(*as, **ks)` is one for the parameters `ps`. -/
structure Fits (old : Bool) (ps : List (Param V)) (as : List V) (ks : List (String × V)) : Prop where
  /-- every parameter has a value -/
  every : ∀ i p, ps[i]? = some p → (value ps as ks i p).isSome
  /-- no parameter has two -/
  once : ∀ i p, ps[i]? = some p → p.kind = .posKw → i < as.length → ks.lookup p.name = none
  /-- every positional argument has a parameter -/
  room : as.length ≤ ps.countP positional ∨ ∃ p ∈ ps, p.kind = .varPos
  /-- every keyword argument has a parameter -/
  known : ∀ k ∈ ks, (∃ p ∈ ps, named p = true ∧ p.name = k.1) ∨ ∃ p ∈ ps, p.kind = .varKw
  /-- in old versions: no keyword has the name of a positional-only parameter that is not given -/
  strict : old = true → ∀ i p, ps[i]? = some p → p.kind = .posOnly → as.length ≤ i → ks.lookup p.name = none

/-- The positional arguments for a parameter. -/
def posPart : Param V × Option (Arg V) → List V
  | (⟨.posOnly, _, _⟩, some (.one v)) => [v]
  | (⟨.posKw, _, _⟩, some (.one v)) => [v]
  | (⟨.varPos, _, _⟩, some (.many vs)) => vs
  | _ => []

/-- The keyword arguments for a parameter. -/
def kwPart : Param V × Option (Arg V) → List (String × V)
  | (⟨.kwOnly, n, _⟩, some (.one v)) => [(n, v)]
  | (⟨.varKw, _, _⟩, some (.dict d)) => d
  | _ => []

/-! ## Binding -/

theorem value_shift {p : Param V} {ps : List (Param V)} {as as' : List V} {ks ks' : List (String × V)}
    (ha : ∀ (i : Nat) q, ps[i]? = some q → positional q = true → as[i + 1]? = as'[i]?)
    (hv : ∀ (i : Nat) q, ps[i]? = some q → q.kind = .varPos → as.drop (i + 1) = as'.drop i)
    (hk : ∀ q ∈ ps, named q = true → ks.lookup q.name = ks'.lookup q.name)
    (hf : (∃ q ∈ ps, q.kind = .varKw) → (ks.filter fun k => !(p :: ps).any fun q => named q && q.name == k.1) =
      ks'.filter fun k => !ps.any fun q => named q && q.name == k.1)
    (i : Nat) (q : Param V) (hq : ps[i]? = some q) : value (p :: ps) as ks (i + 1) q = value ps as' ks' i q := by
  have hm := List.mem_of_getElem? hq
  unfold value
  cases h : q.kind with
  | posOnly => simp only; rw [ha i q hq (by simp [positional, h])]
  | posKw => simp only; rw [ha i q hq (by simp [positional, h]), hk q hm (by simp [named, h])]
  | varPos => simp only; rw [hv i q hq h]
  | kwOnly => simp only; rw [hk q hm (by simp [named, h])]
  | varKw => simp only; rw [hf ⟨q, hm, h⟩]

theorem forall_cons {α : Type} {P : Nat → α → Prop} {p : α} {ps : List α} :
    (∀ i q, (p :: ps)[i]? = some q → P i q) ↔ P 0 p ∧ ∀ i q, ps[i]? = some q → P (i + 1) q := by
  constructor
  · intro h
    exact ⟨h 0 p rfl, fun i q hq => h (i + 1) q (by simpa using hq)⟩
  · rintro ⟨h0, h1⟩ i q hq
    cases i with
    | zero => simp at hq; subst hq; exact h0
    | succ i => exact h1 i q (by simpa using hq)

/-- The conditions for the first parameter and for the others. -/
theorem fits_cons {old : Bool} {p : Param V} {ps : List (Param V)} {as as' : List V} {ks ks' : List (String × V)}
    (hval : ∀ (i : Nat) (q : Param V), ps[i]? = some q → value (p :: ps) as ks (i + 1) q = value ps as' ks' i q)
    (honce : ∀ (i : Nat) (q : Param V), ps[i]? = some q → q.kind = .posKw →
      ((i + 1 < as.length → ks.lookup q.name = none) ↔ (i < as'.length → ks'.lookup q.name = none)))
    (hroom : (as.length ≤ (p :: ps).countP positional ∨ ∃ q ∈ p :: ps, q.kind = .varPos) ↔
      (as'.length ≤ ps.countP positional ∨ ∃ q ∈ ps, q.kind = .varPos))
    (hknown : (∀ k ∈ ks, (∃ q ∈ p :: ps, named q = true ∧ q.name = k.1) ∨ ∃ q ∈ p :: ps, q.kind = .varKw) ↔
      (∀ k ∈ ks', (∃ q ∈ ps, named q = true ∧ q.name = k.1) ∨ ∃ q ∈ ps, q.kind = .varKw))
    (hstrict : ∀ (i : Nat) (q : Param V), ps[i]? = some q → q.kind = .posOnly →
      ((as.length ≤ i + 1 → ks.lookup q.name = none) ↔ (as'.length ≤ i → ks'.lookup q.name = none))) :
    Fits old (p :: ps) as ks ↔ (value (p :: ps) as ks 0 p).isSome ∧ (p.kind = .posKw → 0 < as.length → ks.lookup p.name = none) ∧
      (old = true → p.kind = .posOnly → as.length ≤ 0 → ks.lookup p.name = none) ∧ Fits old ps as' ks' := by
  constructor
  · rintro ⟨h1, h2, h3, h4, h5⟩
    rw [forall_cons] at h1 h2
    refine ⟨h1.1, h2.1, fun ho => (forall_cons.1 (h5 ho)).1, ?_, ?_, hroom.1 h3, hknown.1 h4, ?_⟩
    · intro i q hq
      rw [← hval i q hq]
      exact h1.2 i q hq
    · intro i q hq hk
      exact (honce i q hq hk).1 (h2.2 i q hq hk)
    · intro ho i q hq hk
      exact (hstrict i q hq hk).1 ((forall_cons.1 (h5 ho)).2 i q hq hk)
  · rintro ⟨a, b, c, h1, h2, h3, h4, h5⟩
    refine ⟨forall_cons.2 ⟨a, fun i q hq => ?_⟩, forall_cons.2 ⟨b, fun i q hq hk => ?_⟩, hroom.2 h3, hknown.2 h4,
      fun ho => forall_cons.2 ⟨c ho, fun i q hq hk => ?_⟩⟩
    · rw [hval i q hq]; exact h1 i q hq
    · exact (honce i q hq hk).2 (h2 i q hq hk)
    · exact (hstrict i q hq hk).2 (h5 ho i q hq hk)

/-- The statement about `bind` that is proved by induction. -/
def Right (old : Bool) (ps : List (Param V)) (as : List V) (ks : List (String × V)) : Prop :=
  (∀ b, bind old ps as ks = some b → fill b = ps.mapIdx fun i p => (p, value ps as ks i p)) ∧
  (Fits old ps as ks ↔ (bind old ps as ks).isSome)

theorem right_cons {old : Bool} {p : Param V} {ps : List (Param V)} {as as' : List V} {ks ks' : List (String × V)}
    {x : Option (Arg V)} {c : Prop} [Decidable c] (ih : Right old ps as' ks')
    (heq : bind old (p :: ps) as ks = if c then (bind old ps as' ks').map ((p, x) :: ·) else none)
    (hfill : c → fillOne p x = value (p :: ps) as ks 0 p)
    (hval : c → ∀ (i : Nat) (q : Param V), ps[i]? = some q → value (p :: ps) as ks (i + 1) q = value ps as' ks' i q)
    (hfits : Fits old (p :: ps) as ks ↔ c ∧ Fits old ps as' ks') : Right old (p :: ps) as ks := by
  constructor
  · intro b hb
    rw [heq] at hb
    split at hb
    · rename_i hc
      obtain ⟨b', hb', rfl⟩ := Option.map_eq_some_iff.1 hb
      have := ih.1 b' hb'
      simp only [fill, List.map_cons, List.mapIdx_cons, hfill hc, List.cons.injEq, true_and]
      rw [show (b'.map fun x => (x.1, fillOne x.1 x.2)) = fill b' from rfl, this]
      apply List.ext_getElem?
      intro i
      simp only [List.getElem?_mapIdx]
      cases hq : ps[i]? with
      | none => rfl
      | some q => simp [hval hc i q hq]
    · cases hb
  · rw [hfits, heq, ih.2]
    by_cases hc : c <;> simp [hc]

theorem lookup_without (n m : String) (ks : List (String × V)) (h : m ≠ n) : (without n ks).lookup m = ks.lookup m := by
  induction ks with
  | nil => rfl
  | cons k ks ih =>
    simp only [without, List.filter_cons]
    by_cases hk : k.1 = n
    · have hm : (m == k.1) = false := by simp [hk, h]
      simp only [hk, bne_self_eq_false, Bool.false_eq_true, if_false]
      rw [List.lookup_cons, ← hk, hm]
      simpa [without, hk] using ih
    · have : (k.1 != n) = true := by simp [hk]
      rw [this, if_pos rfl, List.lookup_cons, List.lookup_cons]
      split
      · rfl
      · exact ih

theorem lookup_none {n : String} {ks : List (String × V)} : ks.lookup n = none ↔ ∀ k ∈ ks, k.1 ≠ n := by
  induction ks with
  | nil => simp
  | cons k ks ih =>
    rw [List.lookup_cons]
    by_cases h : k.1 = n
    · simp [h]
    · have : (n == k.1) = false := by simp; exact fun e => h e.symm
      simp [this, ih, h]

theorem nodup_without {n : String} {ks : List (String × V)} (h : (ks.map Prod.fst).Nodup) :
    ((without n ks).map Prod.fst).Nodup := h.sublist ((List.filter_sublist).map _)

theorem filter_cons_other {p : Param V} {ps : List (Param V)} {ks : List (String × V)}
    (h : named p = true → ks.lookup p.name = none) :
    (ks.filter fun k => !(p :: ps).any fun q => named q && q.name == k.1) =
      ks.filter fun k => !ps.any fun q => named q && q.name == k.1 := by
  apply List.filter_congr
  intro k hk
  rw [List.any_cons]
  cases hn : named p with
  | false => simp
  | true =>
    have := lookup_none.1 (h hn) k hk
    have : (p.name == k.1) = false := by simp; exact fun e => this e.symm
    simp [this]

theorem filter_cons_without {p : Param V} {ps : List (Param V)} {ks : List (String × V)} (h : named p = true) :
    (ks.filter fun k => !(p :: ps).any fun q => named q && q.name == k.1) =
      (without p.name ks).filter fun k => !ps.any fun q => named q && q.name == k.1 := by
  rw [without, List.filter_filter]
  apply List.filter_congr
  intro k _
  rw [List.any_cons, h]
  by_cases hk : k.1 = p.name
  · simp [hk]
  · have : (p.name == k.1) = false := by simp; exact fun e => hk e.symm
    simp [hk, this]

theorem known_other {p : Param V} {ps : List (Param V)} {ks : List (String × V)}
    (h : named p = true → ks.lookup p.name = none) (hk : p.kind ≠ .varKw) :
    (∀ k ∈ ks, (∃ q ∈ p :: ps, named q = true ∧ q.name = k.1) ∨ ∃ q ∈ p :: ps, q.kind = .varKw) ↔
      (∀ k ∈ ks, (∃ q ∈ ps, named q = true ∧ q.name = k.1) ∨ ∃ q ∈ ps, q.kind = .varKw) := by
  constructor
  · intro hh k hkk
    rcases hh k hkk with ⟨q, hq, h1, h2⟩ | ⟨q, hq, h1⟩
    · rcases List.mem_cons.1 hq with rfl | hq
      · exact absurd h2.symm (lookup_none.1 (h h1) k hkk)
      · exact .inl ⟨q, hq, h1, h2⟩
    · rcases List.mem_cons.1 hq with rfl | hq
      · exact absurd h1 hk
      · exact .inr ⟨q, hq, h1⟩
  · intro hh k hkk
    rcases hh k hkk with ⟨q, hq, h1, h2⟩ | ⟨q, hq, h1⟩
    · exact .inl ⟨q, List.mem_cons_of_mem _ hq, h1, h2⟩
    · exact .inr ⟨q, List.mem_cons_of_mem _ hq, h1⟩

theorem known_without {p : Param V} {ps : List (Param V)} {ks : List (String × V)} (h : named p = true) (hk : p.kind ≠ .varKw) :
    (∀ k ∈ ks, (∃ q ∈ p :: ps, named q = true ∧ q.name = k.1) ∨ ∃ q ∈ p :: ps, q.kind = .varKw) ↔
      (∀ k ∈ without p.name ks, (∃ q ∈ ps, named q = true ∧ q.name = k.1) ∨ ∃ q ∈ ps, q.kind = .varKw) := by
  constructor
  · intro hh k hkk
    simp only [without, List.mem_filter, bne_iff_ne, ne_eq] at hkk
    rcases hh k hkk.1 with ⟨q, hq, h1, h2⟩ | ⟨q, hq, h1⟩
    · rcases List.mem_cons.1 hq with rfl | hq
      · exact absurd h2.symm hkk.2
      · exact .inl ⟨q, hq, h1, h2⟩
    · rcases List.mem_cons.1 hq with rfl | hq
      · exact absurd h1 hk
      · exact .inr ⟨q, hq, h1⟩
  · intro hh k hkk
    by_cases e : k.1 = p.name
    · exact .inl ⟨p, List.mem_cons_self, h, e.symm⟩
    · rcases hh k (by simp [without, hkk, e]) with ⟨q, hq, h1, h2⟩ | ⟨q, hq, h1⟩
      · exact .inl ⟨q, List.mem_cons_of_mem _ hq, h1, h2⟩
      · exact .inr ⟨q, List.mem_cons_of_mem _ hq, h1⟩

/-- `bind` succeeds exactly for the calls that fit, and gives each parameter its value. -/
theorem right (old : Bool) : ∀ (ps : List (Param V)) (as : List V) (ks : List (String × V)), Wf ps → (ks.map Prod.fst).Nodup →
    Right old ps as ks := by
  intro ps
  induction ps with
  | nil =>
    intro as ks _ _
    refine ⟨?_, ?_, ?_⟩
    · intro b hb
      cases as <;> cases ks <;> simp [bind] at hb
      subst hb
      rfl
    · rintro ⟨-, -, h3, h4, -⟩
      have : as = [] := by simpa using h3
      subst this
      have : ks = [] := by
        cases ks with
        | nil => rfl
        | cons k ks => simpa using h4 k List.mem_cons_self
      subst this
      rfl
    · intro h
      cases as <;> cases ks <;> simp [bind] at h
      exact ⟨by simp, by simp, by simp, by simp, by simp⟩
  | cons p ps ih =>
    intro as ks hw hn
    have hw' : Wf ps := ⟨(List.pairwise_cons.1 hw.order).2, fun q hq => hw.vars q (List.mem_cons_of_mem _ hq),
      (List.nodup_cons.1 hw.names).2⟩
    have hord := (List.pairwise_cons.1 hw.order).1
    have hname : ∀ q ∈ ps, q.name ≠ p.name := by
      intro q hq e
      exact (List.nodup_cons.1 hw.names).1 (List.mem_map.2 ⟨q, hq, e⟩)
    cases hk : p.kind with
    | posOnly =>
      cases as with
      | cons a as =>
        refine right_cons (c := True) (x := some (.one a)) (ih as ks hw' hn) ?_ ?_ ?_ ?_
        · simp [bind, hk]
        · intro _; simp [fillOne, value, hk]
        · intro _
          exact value_shift (fun i q _ _ => by simp) (fun i q _ _ => by simp) (fun q _ _ => rfl)
            (fun _ => filter_cons_other (by simp [named, hk]))
        · rw [fits_cons (as' := as) (ks' := ks)]
          · simp [value, hk]
          · exact value_shift (fun i q _ _ => by simp) (fun i q _ _ => by simp) (fun q _ _ => rfl)
              (fun _ => filter_cons_other (by simp [named, hk]))
          · intro i q _ _; simp
          · simp [positional, hk]
          · simp [named, hk]
          · intro i q _ _; simp
      | nil =>
        refine right_cons (c := (old && has p.name ks) = false ∧ p.dflt.isSome) (x := none) (ih [] ks hw' hn) ?_ ?_ ?_ ?_
        · simp only [bind, hk]
          cases (old && has p.name ks) <;> simp
        · rintro ⟨-, hd⟩
          obtain ⟨d, hd⟩ := Option.isSome_iff_exists.1 hd
          simp [fillOne, value, hk, hd]
        · intro _
          exact value_shift (fun i q _ _ => by simp) (fun i q _ _ => by simp) (fun q _ _ => rfl)
            (fun _ => filter_cons_other (by simp [named, hk]))
        · rw [fits_cons (as' := []) (ks' := ks)]
          · simp only [value, hk, has]
            cases old <;> cases ks.lookup p.name <;> simp
          · exact value_shift (fun i q _ _ => by simp) (fun i q _ _ => by simp) (fun q _ _ => rfl)
              (fun _ => filter_cons_other (by simp [named, hk]))
          · intro i q _ _; simp
          · simp
          · simp [named, hk]
          · intro i q _ _; simp
    | posKw =>
      cases hl : ks.lookup p.name with
      | none =>
        have hf := filter_cons_other (ps := ps) (p := p) (ks := ks) (fun _ => hl)
        have hkn := known_other (ps := ps) (p := p) (ks := ks) (fun _ => hl) (by simp [hk])
        cases as with
        | cons a as =>
          refine right_cons (c := True) (x := some (.one a)) (ih as ks hw' hn) ?_ ?_ ?_ ?_
          · simp [bind, hk, hl]
          · intro _; simp [fillOne, value, hk]
          · intro _
            exact value_shift (fun i q _ _ => by simp) (fun i q _ _ => by simp) (fun q _ _ => rfl) (fun _ => hf)
          · rw [fits_cons (as' := as) (ks' := ks)]
            · simp [value, hk, hl]
            · exact value_shift (fun i q _ _ => by simp) (fun i q _ _ => by simp) (fun q _ _ => rfl) (fun _ => hf)
            · intro i q _ _; simp
            · simp [positional, hk]
            · exact hkn
            · intro i q _ _; simp
        | nil =>
          refine right_cons (c := p.dflt.isSome) (x := none) (ih [] ks hw' hn) ?_ ?_ ?_ ?_
          · simp [bind, hk, hl]
          · intro hd
            obtain ⟨d, hd⟩ := Option.isSome_iff_exists.1 hd
            simp [fillOne, value, hk, hd, hl]
          · intro _
            exact value_shift (fun i q _ _ => by simp) (fun i q _ _ => by simp) (fun q _ _ => rfl) (fun _ => hf)
          · rw [fits_cons (as' := []) (ks' := ks)]
            · simp [value, hk, hl]
            · exact value_shift (fun i q _ _ => by simp) (fun i q _ _ => by simp) (fun q _ _ => rfl) (fun _ => hf)
            · intro i q _ _; simp
            · simp
            · exact hkn
            · intro i q _ _; simp
      | some v =>
        cases as with
        | cons a as =>
          constructor
          · intro b hb
            simp [bind, hk, hl] at hb
          · constructor
            · intro h
              have := h.once 0 p rfl hk (by simp)
              rw [hl] at this; cases this
            · intro h
              simp [bind, hk, hl] at h
        | nil =>
          have hf := filter_cons_without (ps := ps) (p := p) (ks := ks) (by simp [named, hk])
          have hkn := known_without (ps := ps) (p := p) (ks := ks) (by simp [named, hk]) (by simp [hk])
          refine right_cons (c := True) (x := some (.one v)) (ih [] (without p.name ks) hw' (nodup_without hn)) ?_ ?_ ?_ ?_
          · simp [bind, hk, hl]
          · intro _; simp [fillOne, value, hk, hl]
          · intro _
            exact value_shift (fun i q _ _ => by simp) (fun i q _ _ => by simp)
              (fun q hq _ => (lookup_without _ _ _ (hname q hq)).symm) (fun _ => hf)
          · rw [fits_cons (as' := []) (ks' := without p.name ks)]
            · simp [value, hk, hl]
            · exact value_shift (fun i q _ _ => by simp) (fun i q _ _ => by simp)
                (fun q hq _ => (lookup_without _ _ _ (hname q hq)).symm) (fun _ => hf)
            · intro i q _ _; simp
            · simp
            · exact hkn
            · intro i q hq _
              rw [lookup_without _ _ _ (hname q (List.mem_of_getElem? hq))]; simp
    | varPos =>
      have hrest : ∀ q ∈ ps, q.kind = .kwOnly ∨ q.kind = .varKw := by
        intro q hq
        have := hord q hq
        cases h : q.kind <;> simp [h, hk, Kind.rank] at this ⊢
      have hd := hw.vars p List.mem_cons_self (.inl hk)
      refine right_cons (c := True) (x := if as.isEmpty then none else some (.many as)) (ih [] ks hw' hn) ?_ ?_ ?_ ?_
      · simp [bind, hk]
      · intro _; cases as <;> simp [fillOne, value, hk, hd]
      · intro _
        exact value_shift (fun i q hq hp => by rcases hrest q (List.mem_of_getElem? hq) with h | h <;> simp [positional, h] at hp)
          (fun i q hq hp => by rcases hrest q (List.mem_of_getElem? hq) with h | h <;> simp [h] at hp) (fun q _ _ => rfl)
            (fun _ => filter_cons_other (by simp [named, hk]))
      · rw [fits_cons (as' := []) (ks' := ks)]
        · simp [value, hk]
        · exact value_shift (fun i q hq hp => by rcases hrest q (List.mem_of_getElem? hq) with h | h <;> simp [positional, h] at hp)
            (fun i q hq hp => by rcases hrest q (List.mem_of_getElem? hq) with h | h <;> simp [h] at hp) (fun q _ _ => rfl)
              (fun _ => filter_cons_other (by simp [named, hk]))
        · intro i q hq hp; rcases hrest q (List.mem_of_getElem? hq) with h | h <;> simp [h] at hp
        · simp [hk]
        · simp [named, hk]
        · intro i q hq hp; rcases hrest q (List.mem_of_getElem? hq) with h | h <;> simp [h] at hp
    | kwOnly =>
      have hrest : ∀ q ∈ ps, q.kind = .kwOnly ∨ q.kind = .varKw := by
        intro q hq
        have := hord q hq
        cases h : q.kind <;> simp [h, hk, Kind.rank] at this ⊢
      have hno : (∀ q ∈ p :: ps, positional q = false ∧ q.kind ≠ .varPos) := by
        intro q hq
        rcases List.mem_cons.1 hq with rfl | hq
        · simp [positional, hk]
        · rcases hrest q hq with h | h <;> simp [positional, h]
      cases as with
      | cons a as =>
        constructor
        · intro b hb
          simp [bind, hk] at hb
        · constructor
          · intro h
            exfalso
            rcases h.room with h | ⟨q, hq, h⟩
            · rw [List.countP_eq_zero.2 (fun q hq => by simp [(hno q hq).1])] at h
              simp at h
            · exact (hno q hq).2 h
          · intro h
            simp [bind, hk] at h
      | nil =>
        cases hl : ks.lookup p.name with
        | none =>
          have hf := filter_cons_other (ps := ps) (p := p) (ks := ks) (fun _ => hl)
          have hkn := known_other (ps := ps) (p := p) (ks := ks) (fun _ => hl) (by simp [hk])
          refine right_cons (c := p.dflt.isSome) (x := none) (ih [] ks hw' hn) ?_ ?_ ?_ ?_
          · simp [bind, hk, hl]
          · intro hd
            obtain ⟨d, hd⟩ := Option.isSome_iff_exists.1 hd
            simp [fillOne, value, hk, hd, hl]
          · intro _
            exact value_shift (fun i q _ _ => by simp) (fun i q _ _ => by simp) (fun q _ _ => rfl) (fun _ => hf)
          · rw [fits_cons (as' := []) (ks' := ks)]
            · simp [value, hk, hl]
            · exact value_shift (fun i q _ _ => by simp) (fun i q _ _ => by simp) (fun q _ _ => rfl) (fun _ => hf)
            · intro i q _ _; simp
            · simp
            · exact hkn
            · intro i q _ _; simp
        | some v =>
          have hf := filter_cons_without (ps := ps) (p := p) (ks := ks) (by simp [named, hk])
          have hkn := known_without (ps := ps) (p := p) (ks := ks) (by simp [named, hk]) (by simp [hk])
          refine right_cons (c := True) (x := some (.one v)) (ih [] (without p.name ks) hw' (nodup_without hn)) ?_ ?_ ?_ ?_
          · simp [bind, hk, hl]
          · intro _; simp [fillOne, value, hk, hl]
          · intro _
            exact value_shift (fun i q _ _ => by simp) (fun i q _ _ => by simp)
              (fun q hq _ => (lookup_without _ _ _ (hname q hq)).symm) (fun _ => hf)
          · rw [fits_cons (as' := []) (ks' := without p.name ks)]
            · simp [value, hk, hl]
            · exact value_shift (fun i q _ _ => by simp) (fun i q _ _ => by simp)
                (fun q hq _ => (lookup_without _ _ _ (hname q hq)).symm) (fun _ => hf)
            · intro i q _ _; simp
            · simp
            · exact hkn
            · intro i q hq _
              rw [lookup_without _ _ _ (hname q (List.mem_of_getElem? hq))]; simp
    | varKw =>
      have hps : ps = [] := by
        cases ps with
        | nil => rfl
        | cons q ps =>
          have := hord q List.mem_cons_self
          cases h : q.kind <;> simp [h, hk, Kind.rank] at this
      subst hps
      have hd := hw.vars p List.mem_cons_self (.inr hk)
      cases as with
      | cons a as =>
        constructor
        · intro b hb
          simp [bind, hk] at hb
        · constructor
          · intro h
            exfalso
            rcases h.room with h | ⟨q, hq, h1⟩
            · simp [positional, hk] at h
            · rw [List.mem_singleton] at hq; subst hq; rw [hk] at h1; cases h1
          · intro h
            simp [bind, hk] at h
      | nil =>
        refine right_cons (c := True) (x := if ks.isEmpty then none else some (.dict ks)) (ih [] [] hw' (by simp)) ?_ ?_ ?_ ?_
        · simp [bind, hk]
        · intro _
          have : (ks.filter fun k => !([p].any fun q => named q && q.name == k.1)) = ks :=
            List.filter_eq_self.2 fun k _ => by simp [named, hk]
          simp only [value, hk, this]
          cases ks <;> simp [fillOne, hk, hd]
        · intro _ i q hq; simp at hq
        · rw [fits_cons (as' := []) (ks' := [])]
          · simp [value, hk]
          · intro i q hq; simp at hq
          · intro i q hq; simp at hq
          · simp
          · simp [hk]
          · intro i q hq; simp at hq

/-! ## The arguments of the term -/

/-- An entry of the kind of its parameter; the keys of `**kwargs` differ and are not those of the other parameters. -/
def Shape (ps : List (Param V)) (x : Param V × Option (Arg V)) : Prop :=
  match x.1.kind with
  | .varPos => ∃ vs, x.2 = some (.many vs)
  | .varKw => ∃ d, x.2 = some (.dict d) ∧ (d.map Prod.fst).Nodup ∧ ∀ k ∈ d, ∀ q ∈ ps, named q = true → q.name ≠ k.1
  | _ => ∃ v, x.2 = some (.one v)

theorem Shape.tail {p : Param V} {ps : List (Param V)} {x : Param V × Option (Arg V)} (h : Shape (p :: ps) x) : Shape ps x := by
  unfold Shape at h ⊢
  cases hk : x.1.kind <;> simp only [hk] at h ⊢
  case varKw =>
    obtain ⟨d, h1, h2, h3⟩ := h
    exact ⟨d, h1, h2, fun k hk q hq => h3 k hk q (List.mem_cons_of_mem _ hq)⟩
  all_goals exact h

theorem Wf.tail {p : Param V} {ps : List (Param V)} (hw : Wf (p :: ps)) : Wf ps :=
  ⟨(List.pairwise_cons.1 hw.order).2, fun q hq => hw.vars q (List.mem_cons_of_mem _ hq), (List.nodup_cons.1 hw.names).2⟩

theorem Wf.late {p : Param V} {ps : List (Param V)} (hw : Wf (p :: ps)) (h : 2 ≤ p.kind.rank) :
    ∀ q ∈ ps, q.kind = .kwOnly ∨ q.kind = .varKw := by
  intro q hq
  have := (List.pairwise_cons.1 hw.order).1 q hq
  cases hp : p.kind <;> cases h' : q.kind <;> simp [h', hp, Kind.rank] at this h ⊢

theorem Wf.last {p : Param V} {ps : List (Param V)} (hw : Wf (p :: ps)) (h : p.kind = .varKw) : ps = [] := by
  cases ps with
  | nil => rfl
  | cons q ps =>
    have := (List.pairwise_cons.1 hw.order).1 q List.mem_cons_self
    cases h' : q.kind <;> simp [h', h, Kind.rank] at this

theorem posPart_late {x : Param V × Option (Arg V)} (h : x.1.kind = .kwOnly ∨ x.1.kind = .varKw) : posPart x = [] := by
  obtain ⟨⟨k, n, d⟩, a⟩ := x
  rcases h with h | h <;> simp only at h <;> subst h <;> rfl

theorem flatMap_late {b : Bound V} (h : ∀ x ∈ b, x.1.kind = .kwOnly ∨ x.1.kind = .varKw) : b.flatMap posPart = [] := by
  induction b with
  | nil => rfl
  | cons x b ih =>
    rw [List.flatMap_cons, posPart_late (h x List.mem_cons_self), ih fun y hy => h y (List.mem_cons_of_mem _ hy)]
    rfl

theorem late_map {p : Param V} {b : Bound V} (hw : Wf (p :: b.map Prod.fst)) (h : 2 ≤ p.kind.rank) :
    ∀ x ∈ b, x.1.kind = .kwOnly ∨ x.1.kind = .varKw := fun x hx => hw.late h x.1 (List.mem_map_of_mem hx)

/-- An entry of the kind of its parameter, or none for `*args` and `**kwargs`. -/
def Loose (x : Param V × Option (Arg V)) : Prop :=
  match x.1.kind with
  | .varPos => x.2 = none ∨ ∃ vs, x.2 = some (.many vs)
  | .varKw => x.2 = none ∨ ∃ d, x.2 = some (.dict d)
  | _ => ∃ v, x.2 = some (.one v)

theorem Shape.loose {ps : List (Param V)} {x : Param V × Option (Arg V)} (h : Shape ps x) : Loose x := by
  unfold Shape at h
  unfold Loose
  cases hk : x.1.kind <;> simp only [hk] at h ⊢
  case varPos => exact .inr h
  case varKw =>
    obtain ⟨d, h, -⟩ := h
    exact .inr ⟨d, h⟩
  all_goals exact h

theorem argsOf_eq : ∀ (b : Bound V), Wf (b.map Prod.fst) → (∀ x ∈ b, Loose x) → argsOf b = b.flatMap posPart := by
  intro b
  induction b with
  | nil => intro _ _; rfl
  | cons x b ih =>
    intro hw hs
    have hx := hs x List.mem_cons_self
    have ih := ih hw.tail fun y hy => hs y (List.mem_cons_of_mem _ hy)
    obtain ⟨⟨k, n, d⟩, a⟩ := x
    rw [List.flatMap_cons]
    cases k with
    | posOnly => obtain ⟨v, rfl⟩ := hx; simp [argsOf, posPart, ih]
    | posKw => obtain ⟨v, rfl⟩ := hx; simp [argsOf, posPart, ih]
    | varPos =>
      rcases hx with rfl | ⟨v, rfl⟩
      · rw [flatMap_late (late_map hw (by simp [Kind.rank]))]; simp [argsOf, posPart]
      · simp [argsOf, posPart, ih]
    | kwOnly => rw [flatMap_late (late_map hw (by simp [Kind.rank]))]; simp [argsOf, posPart]
    | varKw => rw [flatMap_late (late_map hw (by simp [Kind.rank]))]; simp [argsOf, posPart]

theorem kwargsOf_eq : ∀ (b : Bound V) (st : Bool), Wf (b.map Prod.fst) → (∀ x ∈ b, Loose x) →
    (st = true → ∀ x ∈ b, x.1.kind = .kwOnly ∨ x.1.kind = .varKw) → kwargsOf st b = b.flatMap kwPart := by
  intro b
  induction b with
  | nil => intro st _ _ _; cases st <;> rfl
  | cons x b ih =>
    intro st hw hs hst
    have hx := hs x List.mem_cons_self
    have ih := fun st => ih st hw.tail fun y hy => hs y (List.mem_cons_of_mem _ hy)
    obtain ⟨⟨k, n, d⟩, a⟩ := x
    rw [List.flatMap_cons]
    have hlate : st = true → k = .kwOnly ∨ k = .varKw := fun h => hst h _ List.mem_cons_self
    cases k with
    | posOnly =>
      obtain ⟨v, rfl⟩ := hx
      cases st
      · simp [kwargsOf, kwPart, ih false (by simp)]
      · simp at hlate
    | posKw =>
      obtain ⟨v, rfl⟩ := hx
      cases st
      · simp [kwargsOf, kwPart, ih false (by simp)]
      · simp at hlate
    | varPos =>
      cases st
      · rcases hx with rfl | ⟨v, rfl⟩
        · simp [kwargsOf, kwPart, ih true fun _ => late_map hw (by simp [Kind.rank])]
        · simp [kwargsOf, kwPart, ih false (by simp)]
      · simp at hlate
    | kwOnly =>
      obtain ⟨v, rfl⟩ := hx
      simp [kwargsOf, kwPart, ih true fun _ => late_map hw (by simp [Kind.rank])]
    | varKw =>
      rcases hx with rfl | ⟨v, rfl⟩ <;>
        simp [kwargsOf, kwPart, ih true fun _ => late_map hw (by simp [Kind.rank])]

/-- `arguments` has no entry for empty `*args` and `**kwargs`. -/
def entry : Option (Arg V) → Option (Arg V)
  | some (.many []) => none
  | some (.dict []) => none
  | x => x

theorem key_rest {b : Bound V} {p : Param V} {n : String} (hn : ∀ x ∈ b, x.1.name ≠ n)
    (hs : ∀ x ∈ b, Shape (p :: b.map Prod.fst) x) (hp : named p = true ∧ p.name = n) :
    ∀ k ∈ b.flatMap kwPart, k.1 ≠ n := by
  intro k hk
  obtain ⟨x, hx, hk⟩ := List.mem_flatMap.1 hk
  have h1 := hn x hx
  have h2 := hs x hx
  obtain ⟨⟨kd, m, d⟩, a⟩ := x
  cases kd with
  | kwOnly =>
    obtain ⟨v, rfl⟩ := h2
    simp only [kwPart, List.mem_singleton] at hk
    subst hk
    exact h1
  | varKw =>
    obtain ⟨d, rfl, -, h3⟩ := h2
    intro e
    exact h3 k hk p List.mem_cons_self hp.1 (hp.2.trans e.symm)
  | _ => cases a <;> simp [kwPart] at hk

theorem nodup_kw : ∀ (b : Bound V), Wf (b.map Prod.fst) → (∀ x ∈ b, Shape (b.map Prod.fst) x) →
    ((b.flatMap kwPart).map Prod.fst).Nodup := by
  intro b
  induction b with
  | nil => intro _ _; simp
  | cons x b ih =>
    intro hw hs
    have hx := hs x List.mem_cons_self
    have hs' := fun y hy => hs y (List.mem_cons_of_mem _ hy)
    have ih := ih hw.tail fun y hy => (hs' y hy).tail
    have hn : ∀ y ∈ b, y.1.name ≠ x.1.name := by
      intro y hy e
      exact (List.nodup_cons.1 hw.names).1 (List.mem_map.2 ⟨y.1, List.mem_map_of_mem hy, e⟩)
    obtain ⟨⟨k, n, d⟩, a⟩ := x
    rw [List.flatMap_cons]
    cases k with
    | kwOnly =>
      obtain ⟨v, rfl⟩ := hx
      simp only [kwPart, List.singleton_append, List.map_cons, List.nodup_cons]
      refine ⟨?_, ih⟩
      intro hm
      obtain ⟨k, hk, e⟩ := List.mem_map.1 hm
      exact key_rest hn hs' ⟨by simp [named], rfl⟩ k hk e
    | varKw =>
      have := hw.last rfl
      have : b = [] := by simpa using this
      subst this
      obtain ⟨d, rfl, h, -⟩ := hx
      simpa [kwPart] using h
    | _ => cases a <;> simpa [kwPart] using ih

/-- The arguments of the term give each parameter its value. -/
theorem roundtrip (old : Bool) : ∀ (b : Bound V), Wf (b.map Prod.fst) → (∀ x ∈ b, Shape (b.map Prod.fst) x) →
    ∀ ps : List (Param V), ps.map (fun p => (p.kind, p.name)) = b.map (fun x => (x.1.kind, x.1.name)) →
    bind old ps (b.flatMap posPart) (b.flatMap kwPart) = some (List.zipWith (fun p x => (p, entry x.2)) ps b) := by
  intro b
  induction b with
  | nil =>
    intro _ _ ps hp
    have : ps = [] := by simpa using hp
    subst this
    rfl
  | cons x b ih =>
    intro hw hs ps hp
    cases ps with
    | nil => simp at hp
    | cons p ps =>
      simp only [List.map_cons, List.cons.injEq, Prod.mk.injEq] at hp
      obtain ⟨⟨hpk, hpn⟩, hp⟩ := hp
      have hx := hs x List.mem_cons_self
      have hs' := fun y hy => hs y (List.mem_cons_of_mem _ hy)
      have ih := ih hw.tail (fun y hy => (hs' y hy).tail) ps hp
      have hn : ∀ y ∈ b, y.1.name ≠ x.1.name := by
        intro y hy e
        exact (List.nodup_cons.1 hw.names).1 (List.mem_map.2 ⟨y.1, List.mem_map_of_mem hy, e⟩)
      obtain ⟨⟨k, n, d⟩, a⟩ := x
      obtain ⟨pk, pn, pd⟩ := p
      simp only at hpk hpn
      subst hpk hpn
      rw [List.flatMap_cons, List.flatMap_cons, List.zipWith_cons_cons]
      cases pk with
      | posOnly =>
        obtain ⟨v, rfl⟩ := hx
        simp only [posPart, kwPart, List.singleton_append, List.nil_append, bind, ih]
        rfl
      | posKw =>
        obtain ⟨v, rfl⟩ := hx
        have : (b.flatMap kwPart).lookup pn = none := lookup_none.2 (key_rest hn hs' ⟨by simp [named], rfl⟩)
        simp only [posPart, kwPart, List.singleton_append, List.nil_append, bind, ih, this]
        rfl
      | varPos =>
        obtain ⟨vs, rfl⟩ := hx
        rw [flatMap_late (late_map hw (by simp [Kind.rank]))] at ih ⊢
        simp only [posPart, kwPart, List.append_nil, List.nil_append, bind, ih]
        cases vs <;> rfl
      | kwOnly =>
        obtain ⟨v, rfl⟩ := hx
        rw [flatMap_late (late_map hw (by simp [Kind.rank]))] at ih ⊢
        have : without pn ((pn, v) :: b.flatMap kwPart) = b.flatMap kwPart := by
          rw [without, List.filter_cons]
          simp only [bne_self_eq_false, Bool.false_eq_true, if_false]
          apply List.filter_eq_self.2
          intro k hk
          simpa using key_rest hn hs' ⟨by simp [named], rfl⟩ k hk
        simp only [posPart, kwPart, List.append_nil, List.singleton_append, bind, List.lookup_cons, beq_self_eq_true, this, ih]
        rfl
      | varKw =>
        have hb := hw.last rfl
        have : b = [] := by simpa using hb
        subst this
        have : ps = [] := by simpa using hp
        subst this
        obtain ⟨d, rfl, -⟩ := hx
        cases d <;> simp [posPart, kwPart, bind, entry]

/-- The parameters with their values. -/
def values (ps : List (Param V)) (as : List V) (ks : List (String × V)) : Bound V :=
  ps.mapIdx fun i p => (p, value ps as ks i p)

theorem values_fst (ps : List (Param V)) (as : List V) (ks : List (String × V)) : (values ps as ks).map Prod.fst = ps := by
  apply List.ext_getElem?
  intro i
  simp only [values, List.getElem?_map, List.getElem?_mapIdx]
  cases ps[i]? <;> rfl

theorem values_shape {old : Bool} {ps : List (Param V)} {as : List V} {ks : List (String × V)} (hn : (ks.map Prod.fst).Nodup)
    (h : Fits old ps as ks) : ∀ x ∈ values ps as ks, Shape ps x := by
  intro x hx
  obtain ⟨i, hi⟩ := List.getElem?_of_mem hx
  simp only [values, List.getElem?_mapIdx, Option.map_eq_some_iff] at hi
  obtain ⟨p, hp, rfl⟩ := hi
  have := h.every i p hp
  unfold Shape
  unfold value at this ⊢
  cases hk : p.kind <;> simp only [hk] at this ⊢
  case posOnly =>
    obtain ⟨v, hv⟩ := Option.isSome_iff_exists.1 (Option.isSome_map ▸ this)
    exact ⟨v, by rw [hv]; rfl⟩
  case posKw =>
    obtain ⟨v, hv⟩ := Option.isSome_iff_exists.1 (Option.isSome_map ▸ this)
    exact ⟨v, by rw [hv]; rfl⟩
  case kwOnly =>
    obtain ⟨v, hv⟩ := Option.isSome_iff_exists.1 (Option.isSome_map ▸ this)
    exact ⟨v, by rw [hv]; rfl⟩
  case varPos => exact ⟨_, rfl⟩
  case varKw =>
    refine ⟨_, rfl, hn.sublist ((List.filter_sublist).map _), ?_⟩
    intro k hk q hq hqn e
    have := (List.mem_filter.1 hk).2
    simp only [Bool.not_eq_true', List.any_eq_false, Bool.and_eq_true, beq_iff_eq, not_and] at this
    exact this q hq hqn e

/-- **C102.** A call of an operation without handler or default raises `TypeError` unless it fits the signature; else its term has in
`args` the values of the positional parameters, in order, then of `*args`, and in `kwargs` those of the keyword-only ones, in order,
then of `**kwargs`; defaults are filled in. -/
theorem C102_term (old : Bool) (ps : List (Param V)) (as : List V) (ks : List (String × V)) (hw : Wf ps)
    (hn : (ks.map Prod.fst).Nodup) (r : List V × List (String × V)) :
    norm old ps as ks = some r ↔
      Fits old ps as ks ∧ r = ((values ps as ks).flatMap posPart, (values ps as ks).flatMap kwPart) := by
  obtain ⟨h1, h2⟩ := right old ps as ks hw hn
  have key : ∀ b, bind old ps as ks = some b → Fits old ps as ks →
      (argsOf (fill b), kwargsOf false (fill b)) = ((values ps as ks).flatMap posPart, (values ps as ks).flatMap kwPart) := by
    intro b hb hf
    have hfill : fill b = values ps as ks := h1 b hb
    have hw' : Wf ((values ps as ks).map Prod.fst) := by rw [values_fst]; exact hw
    have hs : ∀ x ∈ values ps as ks, Shape ((values ps as ks).map Prod.fst) x := by rw [values_fst]; exact values_shape hn hf
    rw [hfill, argsOf_eq _ hw' fun x hx => (hs x hx).loose, kwargsOf_eq _ false hw' (fun x hx => (hs x hx).loose) (by simp)]
  constructor
  · intro h
    obtain ⟨b, hb, rfl⟩ := Option.map_eq_some_iff.1 h
    have hf := h2.2 (by rw [hb]; rfl)
    exact ⟨hf, key b hb hf⟩
  · rintro ⟨hf, rfl⟩
    obtain ⟨b, hb⟩ := Option.isSome_iff_exists.1 (h2.1 hf)
    rw [norm, hb, Option.map_some, key b hb hf]

/-- **C102.** `bind` raises exactly if the call does not fit, and with `apply_defaults` it gives each parameter its value. -/
theorem C102_bind (old : Bool) (ps : List (Param V)) (as : List V) (ks : List (String × V)) (hw : Wf ps)
    (hn : (ks.map Prod.fst).Nodup) :
    ((bind old ps as ks).isSome ↔ Fits old ps as ks) ∧
      ∀ b, bind old ps as ks = some b → fill b = ps.mapIdx fun i p => (p, value ps as ks i p) :=
  ⟨(right old ps as ks hw hn).2.symm, (right old ps as ks hw hn).1⟩

/-- The values of the parameters of another function with the same kinds and names of parameters, called with the arguments of the
term. -/
theorem values_term {old old' : Bool} {ps ps' : List (Param V)} {as : List V} {ks : List (String × V)} (hw : Wf ps) (hw' : Wf ps')
    (hn : (ks.map Prod.fst).Nodup) (hp : ps'.map (fun p => (p.kind, p.name)) = ps.map (fun p => (p.kind, p.name)))
    (hf : Fits old ps as ks) :
    Fits old' ps' ((values ps as ks).flatMap posPart) ((values ps as ks).flatMap kwPart) ∧
      values ps' ((values ps as ks).flatMap posPart) ((values ps as ks).flatMap kwPart) =
        List.zipWith (fun p x => (p, x.2)) ps' (values ps as ks) := by
  have hwv : Wf ((values ps as ks).map Prod.fst) := by rw [values_fst]; exact hw
  have hs : ∀ x ∈ values ps as ks, Shape ((values ps as ks).map Prod.fst) x := by rw [values_fst]; exact values_shape hn hf
  have hp' : ps'.map (fun p => (p.kind, p.name)) = (values ps as ks).map (fun x => (x.1.kind, x.1.name)) := by
    rw [hp]
    have := congrArg (List.map fun p : Param V => (p.kind, p.name)) (values_fst ps as ks)
    rw [List.map_map] at this
    exact this.symm
  have hr := roundtrip old' _ hwv hs ps' hp'
  obtain ⟨h1, h2⟩ := right old' ps' _ _ hw' (nodup_kw _ hwv hs)
  refine ⟨h2.2 (by rw [hr]; rfl), ?_⟩
  rw [values, ← h1 _ hr, fill]
  apply List.ext_getElem?
  intro i
  simp only [List.getElem?_map, List.getElem?_zipWith]
  cases hi : ps'[i]? with
  | none => rfl
  | some p =>
    cases hx : (values ps as ks)[i]? with
    | none => rfl
    | some x =>
      have hkn : p.kind = x.1.kind := by
        have := congrArg (fun l => l[i]?) hp'
        simp [hi, hx] at this
        exact this.1
      have hv := hs x (List.mem_of_getElem? hx)
      have hd := hw'.vars p (List.mem_of_getElem? hi)
      simp only [Option.map_some, Option.some.injEq, Prod.mk.injEq, true_and]
      unfold Shape at hv
      rw [← hkn] at hv
      cases hk : p.kind <;> simp only [hk] at hv hd
      case varPos =>
        obtain ⟨vs, hv⟩ := hv
        have := hd (.inl trivial)
        rw [hv]
        cases vs <;> simp [entry, fillOne, hk, this]
      case varKw =>
        obtain ⟨vs, hv, -⟩ := hv
        have := hd (.inr trivial)
        rw [hv]
        cases vs <;> simp [entry, fillOne, hk, this]
      all_goals
        obtain ⟨v, hv⟩ := hv
        rw [hv]
        rfl

/-- **C102.** The arguments of a term are those of the term for them: evaluating the term keeps them. -/
theorem C102_again (old : Bool) (ps : List (Param V)) (as as' : List V) (ks ks' : List (String × V)) (hw : Wf ps)
    (hn : (ks.map Prod.fst).Nodup) (h : norm old ps as ks = some (as', ks')) : norm old ps as' ks' = some (as', ks') := by
  obtain ⟨hf, hr⟩ := (C102_term old ps as ks hw hn _).1 h
  cases hr
  have hwv : Wf ((values ps as ks).map Prod.fst) := by rw [values_fst]; exact hw
  have hs : ∀ x ∈ values ps as ks, Shape ((values ps as ks).map Prod.fst) x := by rw [values_fst]; exact values_shape hn hf
  obtain ⟨hf', hv⟩ := values_term (old' := old) hw hw hn rfl hf
  have : List.zipWith (fun p (x : Param V × Option (Arg V)) => (p, x.2)) ps (values ps as ks) = values ps as ks := by
    apply List.ext_getElem?
    intro i
    simp only [values, List.getElem?_zipWith, List.getElem?_mapIdx]
    cases ps[i]? <;> rfl
  rw [C102_term _ _ _ _ hw (nodup_kw _ hwv hs)]
  exact ⟨hf', by rw [hv, this]⟩

/-- **C102.** A handler whose parameters have the kinds and names of those of the operation gets, when the term is evaluated, the
values that the operation's parameters had in the call, whatever its own defaults. -/
theorem C102_handler (old old' : Bool) (ps ps' : List (Param V)) (as as' : List V) (ks ks' : List (String × V)) (hw : Wf ps)
    (hw' : Wf ps') (hn : (ks.map Prod.fst).Nodup)
    (hp : ps'.map (fun p => (p.kind, p.name)) = ps.map (fun p => (p.kind, p.name)))
    (h : norm old ps as ks = some (as', ks')) :
    Fits old' ps' as' ks' ∧ ∀ (i : Nat) p p', ps[i]? = some p → ps'[i]? = some p' →
      value ps' as' ks' i p' = value ps as ks i p := by
  obtain ⟨hf, hr⟩ := (C102_term old ps as ks hw hn _).1 h
  cases hr
  obtain ⟨hf', hv⟩ := values_term (old' := old') hw hw' hn hp hf
  refine ⟨hf', fun i p p' hi hi' => ?_⟩
  have := congrArg (fun l => l[i]?) hv
  simpa [values, List.getElem?_mapIdx, List.getElem?_zipWith, hi, hi'] using this

/-- **C102.** Two calls make terms with the same arguments exactly if each parameter has the same value in both. -/
theorem C102_calls (old : Bool) (ps : List (Param V)) (as as' : List V) (ks ks' : List (String × V)) (hw : Wf ps)
    (hn : (ks.map Prod.fst).Nodup) (hn' : (ks'.map Prod.fst).Nodup) (h : Fits old ps as ks) (h' : Fits old ps as' ks') :
    norm old ps as ks = norm old ps as' ks' ↔ ∀ (i : Nat) p, ps[i]? = some p → value ps as ks i p = value ps as' ks' i p := by
  have e1 := (C102_term old ps as ks hw hn _).2 ⟨h, rfl⟩
  have e2 := (C102_term old ps as' ks' hw hn' _).2 ⟨h', rfl⟩
  constructor
  · intro he
    rw [e1, e2, Option.some.injEq, Prod.mk.injEq] at he
    intro i p hp
    have a1 := (C102_handler old old ps ps as _ ks _ hw hw hn rfl e1).2 i p p hp hp
    have a2 := (C102_handler old old ps ps as' _ ks' _ hw hw hn' rfl e2).2 i p p hp hp
    rw [← a1, ← a2, he.1, he.2]
  · intro hv
    have : values ps as ks = values ps as' ks' := by
      apply List.ext_getElem?
      intro i
      simp only [values, List.getElem?_mapIdx]
      cases hp : ps[i]? with
      | none => rfl
      | some p => simp [hv i p hp]
    rw [e1, e2, this]

/-! ## The sets of bound variables -/

/-- All values replaced. -/
def const (e : W) : Arg V → Arg W
  | .one _ => .one e
  | .many vs => .many (vs.map fun _ => e)
  | .dict d => .dict (d.map fun k => (k.1, e))

theorem posPart_const (e : W) (x : Param V × Option (Arg V)) :
    posPart (setParam e x.1, x.2.map (const e)) = (posPart x).map fun _ => e := by
  obtain ⟨⟨k, n, d⟩, a⟩ := x
  cases k <;> cases a with
  | none => rfl
  | some a => cases a <;> simp [posPart, setParam, const]

theorem kwPart_const (e : W) (x : Param V × Option (Arg V)) :
    kwPart (setParam e x.1, x.2.map (const e)) = (kwPart x).map fun k => (k.1, e) := by
  obtain ⟨⟨k, n, d⟩, a⟩ := x
  cases k <;> cases a with
  | none => rfl
  | some a => cases a <;> simp [kwPart, setParam, const]

theorem flatMap_const {A B C D : Type} (f : A → List B) (g : C → List D) (m : A → C) (h : B → D) (hm : ∀ x, g (m x) = (f x).map h)
    (l : List A) : (l.map m).flatMap g = (l.flatMap f).map h := by
  induction l with
  | nil => rfl
  | cons x l ih => simp [ih, hm]

theorem Wf.setParam {ps : List (Param V)} (hw : Wf ps) (e : W) : Wf (ps.map (setParam e)) := by
  refine ⟨?_, ?_, ?_⟩
  · rw [List.pairwise_map]
    exact hw.order
  · intro p hp h
    obtain ⟨q, hq, rfl⟩ := List.mem_map.1 hp
    simp [Calls.setParam, hw.vars q hq h]
  · rw [List.map_map]
    exact hw.names

/-- One entry of `result_sig`. -/
def over (g : Param V → Option W) (e : W) (x : Param V × Option (Arg V)) : Param W × Option (Arg W) :=
  match g x.1 with
  | none => (setParam e x.1, entry (x.2.map (const e)))
  | some w =>
    match x.1.kind, x.2 with
    | .varPos, some (.many vs) => (setParam e x.1, some (.many (vs.map fun _ => w)))
    | .varKw, some (.dict d) =>
      match entry (some (const e (.dict d))) with
      | some (.dict r) => (setParam e x.1, some (.dict (r.map fun k => if has k.1 d then (k.1, w) else k)))
      | r => (setParam e x.1, r)
    | _, _ => (setParam e x.1, some (.one w))

theorem has_of_mem {d : List (String × V)} {k : String × V} (h : k ∈ d) : has k.1 d = true := by
  unfold has
  cases hl : d.lookup k.1 with
  | none => exact absurd rfl (lookup_none.1 hl k h)
  | some _ => rfl

theorem over_spec (g : Param V → Option W) (e : W) {ps : List (Param V)} {x : Param V × Option (Arg V)} (h : Shape ps x) :
    (over g e x).1 = setParam e x.1 ∧ Loose (over g e x) ∧ (posPart (over g e x) = (posPart x).map fun _ => (g x.1).getD e) ∧
      kwPart (over g e x) = (kwPart x).map fun k => (k.1, (g x.1).getD e) := by
  obtain ⟨⟨k, n, d⟩, a⟩ := x
  unfold over
  cases hg : g ⟨k, n, d⟩ with
  | none =>
    cases k with
    | varPos =>
      obtain ⟨vs, rfl⟩ := h
      cases vs <;> simp [setParam, entry, const, Loose, posPart, kwPart]
    | varKw =>
      obtain ⟨ds, rfl, -⟩ := h
      cases ds <;> simp [setParam, entry, const, Loose, posPart, kwPart]
    | _ =>
      obtain ⟨v, rfl⟩ := h
      simp [setParam, entry, const, Loose, posPart, kwPart]
  | some w =>
    cases k with
    | varPos =>
      obtain ⟨vs, rfl⟩ := h
      simp [setParam, Loose, posPart, kwPart]
    | varKw =>
      obtain ⟨ds, rfl, -⟩ := h
      cases ds with
      | nil => simp [setParam, entry, const, Loose, posPart, kwPart]
      | cons k ds =>
        refine ⟨rfl, .inr ⟨_, rfl⟩, rfl, ?_⟩
        have : ∀ ds' : List (String × V), (∀ k' ∈ ds', k' ∈ k :: ds) →
            ((ds'.map fun k => (k.1, e)).map fun k' => if has k'.1 (k :: ds) then (k'.1, w) else k') =
              ds'.map fun k => (k.1, w) := by
          intro ds' hsub
          rw [List.map_map]
          exact List.map_congr_left fun k' hk' => by simp [has_of_mem (hsub k' hk')]
        exact this (k :: ds) fun _ h => h
    | _ =>
      obtain ⟨v, rfl⟩ := h
      simp [setParam, Loose, posPart, kwPart]

theorem overwrite_eq (g : Param V → Option W) (e : W) (b : Bound V) :
    overwrite g b (b.map fun x => (setParam e x.1, entry (x.2.map (const e)))) = b.map (over g e) := by
  induction b with
  | nil => rfl
  | cons x b ih =>
    have ih' : ((b.zip (b.map fun x => (setParam e x.1, entry (x.2.map (const e))))).map _) = b.map (over g e) := ih
    simp only [overwrite, List.map_cons, List.zip_cons_cons, List.cons.injEq]
    refine ⟨?_, ih'⟩
    obtain ⟨⟨k, n, d⟩, a⟩ := x
    unfold over
    cases g ⟨k, n, d⟩ with
    | none => rfl
    | some w =>
      cases k <;> cases a with
      | none => rfl
      | some a => cases a <;> rfl

/-- **C102.** The sets of bound variables are found: there is one for each argument of the term, that of the parameter it is for. -/
theorem C102_bindings (old : Bool) (ps : List (Param V)) (g : Param V → Option W) (e : W) (as as' : List V)
    (ks ks' : List (String × V)) (hw : Wf ps) (hn : (ks.map Prod.fst).Nodup) (h : norm old ps as ks = some (as', ks')) :
    ∃ ws kws, bindings old ps g e as ks = some (ws, kws) ∧ ws.length = as'.length ∧ kws.map Prod.fst = ks'.map Prod.fst ∧
      ws = (values ps as ks).flatMap (fun x => (posPart x).map fun _ => (g x.1).getD e) ∧
      kws = (values ps as ks).flatMap (fun x => (kwPart x).map fun k => (k.1, (g x.1).getD e)) := by
  obtain ⟨hf, hr⟩ := (C102_term old ps as ks hw hn _).1 h
  cases hr
  obtain ⟨h1, h2⟩ := right old ps as ks hw hn
  obtain ⟨b, hb⟩ := Option.isSome_iff_exists.1 (h2.1 hf)
  have hfill : fill b = values ps as ks := h1 b hb
  have hfst := values_fst ps as ks
  have hwv : Wf ((values ps as ks).map Prod.fst) := by rw [hfst]; exact hw
  have hs : ∀ x ∈ values ps as ks, Shape ps x := values_shape hn hf
  generalize hvs : values ps as ks = vs at *
  have hl : ∀ x ∈ vs, Loose x := fun x hx => (hs x hx).loose
  let b' : Bound W := vs.map fun x => (setParam e x.1, x.2.map (const e))
  have hb'fst : b'.map Prod.fst = ps.map (setParam e) := by
    rw [← hfst]; simp [b', Function.comp_def]
  have hp : b'.flatMap posPart = (vs.flatMap posPart).map fun _ => e := flatMap_const _ _ _ _ (posPart_const e) vs
  have hk : b'.flatMap kwPart = (vs.flatMap kwPart).map fun k => (k.1, e) := flatMap_const _ _ _ _ (kwPart_const e) vs
  have hsh : ∀ x ∈ b', Shape (b'.map Prod.fst) x := by
    intro x hx
    obtain ⟨y, hy, rfl⟩ := List.mem_map.1 hx
    have := hs y hy
    rw [hb'fst]
    obtain ⟨⟨k, n, d⟩, a⟩ := y
    cases k with
    | varPos => obtain ⟨vs, rfl⟩ := this; exact ⟨_, rfl⟩
    | varKw =>
      obtain ⟨ds, rfl, hd, hq⟩ := this
      refine ⟨_, rfl, ?_, ?_⟩
      · rw [List.map_map]; exact hd
      · intro k hk q hq' hqn
        obtain ⟨k', hk', rfl⟩ := List.mem_map.1 hk
        obtain ⟨q', hq'', rfl⟩ := List.mem_map.1 hq'
        exact hq k' hk' q' hq'' hqn
    | _ => obtain ⟨v, rfl⟩ := this; exact ⟨_, rfl⟩
  have hrt := roundtrip old b' (by rw [hb'fst]; exact hw.setParam e) hsh (ps.map (setParam e)) (by
    have := congrArg (List.map fun p : Param W => (p.kind, p.name)) hb'fst
    rw [List.map_map] at this
    exact this.symm)
  have hz : List.zipWith (fun p (x : Param W × Option (Arg W)) => (p, entry x.2)) (ps.map (setParam e)) b' =
      vs.map fun x => (setParam e x.1, entry (x.2.map (const e))) := by
    rw [← hfst]
    simp only [b']
    clear hl hs hwv hfst hvs hsh hrt hp hk hb'fst hfill b' h
    induction vs with
    | nil => rfl
    | cons x vs ih => simp only [List.map_cons, List.zipWith_cons_cons, ih]
  rw [hp, hk, hz] at hrt
  have hov : (vs.map (over g e)).map Prod.fst = ps.map (setParam e) := by
    rw [← hfst, List.map_map, List.map_map]
    exact List.map_congr_left fun x hx => (over_spec g e (hs x hx)).1
  have hwo : Wf ((vs.map (over g e)).map Prod.fst) := by rw [hov]; exact hw.setParam e
  have hlo : ∀ x ∈ vs.map (over g e), Loose x := by
    intro x hx
    obtain ⟨y, hy, rfl⟩ := List.mem_map.1 hx
    exact (over_spec g e (hs y hy)).2.1
  have hfm : ∀ {A B C : Type} (l : List A) (f : A → B) (p : B → List C) (q : A → List C), (∀ x ∈ l, p (f x) = q x) →
      (l.map f).flatMap p = l.flatMap q := by
    intro A B C l f p q hpq
    induction l with
    | nil => rfl
    | cons x l ih =>
      rw [List.map_cons, List.flatMap_cons, List.flatMap_cons, hpq x List.mem_cons_self,
        ih fun y hy => hpq y (List.mem_cons_of_mem _ hy)]
  refine ⟨_, _, ?_, ?_, ?_, rfl, rfl⟩
  · simp only [bindings, hb, hfill]
    rw [argsOf_eq vs hwv hl, kwargsOf_eq vs false hwv hl (by simp), hrt, Option.map_some, overwrite_eq,
      argsOf_eq _ hwo hlo, kwargsOf_eq _ false hwo hlo (by simp),
      hfm vs (over g e) posPart _ fun x hx => (over_spec g e (hs x hx)).2.2.1,
      hfm vs (over g e) kwPart _ fun x hx => (over_spec g e (hs x hx)).2.2.2]
  · simp [List.length_flatMap]
  · simp [List.map_flatMap, Function.comp_def]

/-! ## Names that cannot be keywords -/

/-- **C102.** The call makes this term exactly if no keyword has the name of a parameter of the functions it passes through. -/
theorem C102_keywords (old : Bool) (ps : List (Param V)) (as : List V) (ks : List (String × V)) (r : List V × List (String × V)) :
    callTerm old ps as ks = some r ↔ norm old ps as ks = some r ∧ (∀ k ∈ ks, k.1 ∉ ["self", "op", "__dispatch"]) ∧
      ∀ k ∈ r.2, k.1 ∉ ["self", "op", "func", "ty"] := by
  have hfree : ∀ (names : List String) (ks : List (String × V)), free names ks = true ↔ ∀ k ∈ ks, k.1 ∉ names := by
    intro names ks
    simp only [free, List.all_eq_true, Bool.not_eq_true', has, Option.isSome_eq_false_iff, Option.isNone_iff_eq_none]
    constructor
    · intro h k hk hm
      exact lookup_none.1 (h _ hm) k hk rfl
    · intro h n hn
      exact lookup_none.2 fun k hk e => h k hk (e ▸ hn)
  unfold callTerm
  rw [show (∀ k ∈ ks, k.1 ∉ ["self", "op", "__dispatch"]) ↔ free outer ks = true from (hfree _ _).symm,
    show (∀ k ∈ r.2, k.1 ∉ ["self", "op", "func", "ty"]) ↔ free inner r.2 = true from (hfree _ _).symm]
  by_cases h1 : free outer ks = true
  · rw [if_pos h1]
    cases h2 : norm old ps as ks with
    | none => simp
    | some q =>
      by_cases h3 : free inner q.2 = true
      · simp only [h3, if_true, Option.some.injEq, h1, true_and]
        constructor
        · rintro rfl; exact ⟨rfl, h3⟩
        · rintro ⟨rfl, -⟩; rfl
      · simp only [h3, Bool.false_eq_true, if_false, reduceCtorEq, Option.some.injEq, h1, true_and, false_iff]
        rintro ⟨rfl, h⟩
        exact h3 h
  · simp [h1]

/-- **C102, fails.** An operation with a keyword-only parameter `self`, `op`, `func` or `ty` has no terms: every call raises, also one
that gives no keyword. -/
theorem C102_keyword_only_fails (old : Bool) (ps : List (Param V)) (as : List V) (ks : List (String × V)) (hw : Wf ps)
    (hn : (ks.map Prod.fst).Nodup) (p : Param V) (hp : p ∈ ps) (hk : p.kind = .kwOnly)
    (hname : p.name ∈ ["self", "op", "func", "ty"]) : callTerm old ps as ks = none := by
  cases h : callTerm old ps as ks with
  | none => rfl
  | some r =>
    exfalso
    obtain ⟨h1, -, h2⟩ := (C102_keywords old ps as ks r).1 h
    obtain ⟨hf, rfl⟩ := (C102_term old ps as ks hw hn r).1 h1
    obtain ⟨i, hi⟩ := List.getElem?_of_mem hp
    obtain ⟨v, hv⟩ : ∃ v, value ps as ks i p = some (.one v) := by
      have := values_shape hn hf (p, value ps as ks i p)
        (List.mem_of_getElem? (i := i) (by simp [values, List.getElem?_mapIdx, hi]))
      simpa [Shape, hk] using this
    refine h2 (p.name, v) (List.mem_flatMap.2 ⟨(p, value ps as ks i p),
      List.mem_of_getElem? (i := i) (by simp [values, List.getElem?_mapIdx, hi]), ?_⟩) hname
    obtain ⟨k, n, d⟩ := p
    simp only at hk
    subst hk
    rw [hv]
    simp [kwPart]

/-! ## Examples -/

/-- `def f(x, y=1)` -/
def exF : List (Param Nat) := [⟨.posKw, "x", none⟩, ⟨.posKw, "y", some 1⟩]

theorem exF_wf : Wf exF := ⟨by decide, by decide, by decide⟩

/-- `def h(x, y=2)` -/
def exH : List (Param Nat) := [⟨.posKw, "x", none⟩, ⟨.posKw, "y", some 2⟩]

/-- `f(5)`, `f(x=5)`, `f(y=1, x=5)` and `f(5, 1)` make the same term. -/
example : norm true exF [5] [] = some ([5, 1], []) ∧ norm true exF [] [("x", 5)] = some ([5, 1], []) ∧
    norm true exF [] [("y", 1), ("x", 5)] = some ([5, 1], []) ∧ norm true exF [5, 1] [] = some ([5, 1], []) :=
  ⟨rfl, rfl, rfl, rfl⟩

/-- `def g(a, /, b, *c, d, e=7, **k)` -/
def exG : List (Param Nat) :=
  [⟨.posOnly, "a", none⟩, ⟨.posKw, "b", none⟩, ⟨.varPos, "c", none⟩, ⟨.kwOnly, "d", none⟩, ⟨.kwOnly, "e", some 7⟩,
    ⟨.varKw, "k", none⟩]

theorem exG_wf : Wf exG := ⟨by decide, by decide, by decide⟩

/-- `g(1, 2, 3, 4, z=5, a=6, d=8)` -/
example : norm true exG [1, 2, 3, 4] [("z", 5), ("a", 6), ("d", 8)] =
    some ([1, 2, 3, 4], [("d", 8), ("e", 7), ("z", 5), ("a", 6)]) := rfl

/-- `g(1, b=2, d=8)` -/
example : norm true exG [1] [("b", 2), ("d", 8)] = some ([1, 2], [("d", 8), ("e", 7)]) := rfl

/-- Its sets of bound variables. -/
example : bindings true exG (fun p => if p.name = "c" then some 3 else if p.name = "k" then some 4 else none) 0 [1, 2, 3, 4]
    [("z", 5), ("d", 8)] = some ([0, 0, 3, 3], [("d", 0), ("e", 0), ("z", 4)]) := rfl

/-- Calls that do not fit. -/
example : norm true exF [] [] = none ∧ norm true exF [1, 2, 3] [] = none ∧ norm true exF [1] [("x", 2)] = none ∧
    norm true exF [1] [("z", 2)] = none := ⟨rfl, rfl, rfl, rfl⟩

/-- **C102, fails.** With another default in the handler, a call gives the handler's default and the evaluation of its term that of the
operation. -/
theorem C102_default_fails : Fits false exH [5] [] ∧ value exH [5] [] 1 ⟨.posKw, "y", some 2⟩ = some (.one 2) ∧
    norm true exF [5] [] = some ([5, 1], []) ∧ value exH [5, 1] [] 1 ⟨.posKw, "y", some 2⟩ = some (.one 1) :=
  ⟨(right false exH [5] [] ⟨by decide, by decide, by decide⟩ (by simp)).2.2 rfl, rfl, rfl, rfl⟩

/-- **C102, fails.** A handler without the parameter that has a default, or with keyword-only parameters, takes the call but not its
term. -/
theorem C102_handler_fails :
    (Fits false ([⟨.posKw, "x", none⟩] : List (Param Nat)) [5] [] ∧
      norm true exF [5] [] = some ([5, 1], []) ∧ ¬ Fits false ([⟨.posKw, "x", none⟩] : List (Param Nat)) [5, 1] []) ∧
    (Fits false ([⟨.kwOnly, "x", none⟩, ⟨.kwOnly, "y", none⟩] : List (Param Nat)) [] [("x", 5), ("y", 6)] ∧
      norm true exF [] [("x", 5), ("y", 6)] = some ([5, 6], []) ∧
      ¬ Fits false ([⟨.kwOnly, "x", none⟩, ⟨.kwOnly, "y", none⟩] : List (Param Nat)) [5, 6] []) := by
  have w1 : Wf ([⟨.posKw, "x", none⟩] : List (Param Nat)) := ⟨by decide, by decide, by decide⟩
  have w2 : Wf ([⟨.kwOnly, "x", none⟩, ⟨.kwOnly, "y", none⟩] : List (Param Nat)) := ⟨by decide, by decide, by decide⟩
  refine ⟨⟨(right false _ _ _ w1 (by simp)).2.2 rfl, rfl, fun h => ?_⟩, (right false _ _ _ w2 (by decide)).2.2 rfl, rfl, fun h => ?_⟩
  · exact absurd ((right false _ _ _ w1 (by simp)).2.1 h) (by simp [bind])
  · exact absurd ((right false _ _ _ w2 (by simp)).2.1 h) (by simp [bind])

/-- **C102, fails.** A parameter named `op` can be given by position, and not by keyword. -/
theorem C102_op_fails : callTerm true ([⟨.posKw, "op", none⟩] : List (Param Nat)) [5] [] = some ([5], []) ∧
    norm true ([⟨.posKw, "op", none⟩] : List (Param Nat)) [] [("op", 5)] = some ([5], []) ∧
    callTerm true ([⟨.posKw, "op", none⟩] : List (Param Nat)) [] [("op", 5)] = none := by
  refine ⟨?_, rfl, ?_⟩ <;> decide +kernel

end Verif.Terms.Calls
