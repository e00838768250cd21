import Verif.Unify.Typeof

/-!
# C100: types of functions and operations that are arguments

Model of `nested_type` on callables and operations (`internals/unification.py` 984-1040), of `_unify_signature` (584-619), of
`Operation.__type_rule__` (`ops/types.py` 377-412) for all kinds of parameters, with `inspect.Signature.bind`, and of the
signatures of `deffn` (`ops/syntax.py` 389-393) and of `_CallableTerm.__call__` (668-670).

* A signature is what `inspect.signature` gives, and `Intro` what introspection gives: there may be overloads (1003-1007), or
  no signature (1017-1020).
* The class of Python functions is written in its canonical form `Callable[..., Any]` (697-698).
* The case of `Operation[P, R]` below `Callable[P, R]` (542-552) is a base of the class `Operation` in the table of classes.
* Names of parameters are numbers. The annotations `P.args` and `P.kwargs` are written in their canonical form `Any` (829-831).
* `_freshen` does nothing for types without type variables, and is left out, as in C77; `none` stands for a TypeError, an
  AssertionError, and too little fuel.
-/

namespace Verif.Unify.Functions

open Verif.Unify Verif.Unify.Typeof

/-! ## The model -/

/-- `inspect.Parameter.kind`. -/
inductive Kind where
  | posOnly | posOrKw | varPos | kwOnly | varKw
deriving DecidableEq

structure Param where
  name : Nat
  kind : Kind
  ann : Option Ty
  dflt : Bool

structure Sig where
  params : List Param
  ret : Option Ty

/-- What introspection says about a callable. -/
inductive Intro where
  | overloaded
  | noSignature
  | sig (s : Sig)

/-- The classes `Callable`, `Operation` and `object`. -/
structure Classes where
  callable : Nat
  operation : Nat
  object : Nat

/-- Callables: functions, and objects of a class with `__call__`. -/
inductive Callee where
  | function
  | object (c : Nat)

/-- `Box(type(value))`. -/
def bare (K : Classes) : Callee → Ty
  | .function => .gen K.callable [.ell, .any]
  | .object c => .con c

/-- The condition of 1024-1033. -/
def imprecise (p : Param) : Bool :=
  p.ann.isNone || p.kind == .varPos || p.kind == .varKw || p.kind == .kwOnly

/-- `nested_type` of a callable (996-1040). -/
def callableTy (K : Classes) (k : Callee) : Intro → Ty
  | .overloaded => bare K k
  | .noSignature => bare K k
  | .sig s =>
    match s.ret with
    | none => bare K k
    | some r =>
      if s.params.any imprecise then .gen K.callable [.ell, r]
      else .gen K.callable [.seq (s.params.map fun p => p.ann.getD .any), r]

/-- `nested_type` of an operation (984-993); its class is `Operation`. -/
def operationTy (K : Classes) (i : Intro) : Ty :=
  match callableTy K (.object K.operation) i with
  | .gen _ [a, r] => .gen K.operation [a, r]
  | _ => .con K.operation

/-- The value of a parameter in `BoundArguments.arguments`: one argument, or the tuple or dict of a variadic parameter. -/
inductive Arg where
  | one (t : Ty)
  | many (ts : List Ty)

/-- Without the keyword argument of that name. -/
def without (k : Nat) (ks : List (Nat × Ty)) : List (Nat × Ty) := ks.filter (fun p => p.1 != k)

/-- `inspect.Signature.bind(*as, **ks)`. -/
def bind : List Param → List Ty → List (Nat × Ty) → Option (List (Param × Option Arg))
  | [], [], [] => some []
  | [], _, _ => none
  | p :: ps, as, ks =>
    match p.kind with
    | .posOnly =>
      match as with
      | a :: as => (bind ps as ks).map ((p, some (.one a)) :: ·)
      | [] => if p.dflt then (bind ps [] ks).map ((p, none) :: ·) else none
    | .posOrKw =>
      match as, ks.lookup p.name with
      | _ :: _, some _ => none
      | a :: as, none => (bind ps as ks).map ((p, some (.one a)) :: ·)
      | [], some k => (bind ps [] (without p.name ks)).map ((p, some (.one k)) :: ·)
      | [], none => if p.dflt then (bind ps [] ks).map ((p, none) :: ·) else none
    | .varPos => (bind ps [] ks).map ((p, if as.isEmpty then none else some (.many as)) :: ·)
    | .kwOnly =>
      match as, ks.lookup p.name with
      | _ :: _, _ => none
      | [], some k => (bind ps [] (without p.name ks)).map ((p, some (.one k)) :: ·)
      | [], none => if p.dflt then (bind ps [] ks).map ((p, none) :: ·) else none
    | .varKw => (bind ps as []).map ((p, if ks.isEmpty then none else some (.many (ks.map Prod.snd))) :: ·)

def Kind.isVar : Kind → Bool
  | .varPos => true
  | .varKw => true
  | _ => false

/-- One round of the loop of `_unify_signature` (590-618). -/
def unifyParam (U : Uni) (p : Param) (a : Option Arg) (r : Subs) : Out :=
  match p.ann with
  | none => some (some r)
  | some t =>
    match a with
    | none => if p.kind.isVar then some (some r) else some none
    | some (.many ts) => if p.kind.isVar then fold U (ts.map fun s => (t, s)) r else some none
    | some (.one s) => if p.kind.isVar then some none else U t s r

/-- `_unify_signature` (584-619). -/
def unifySig (U : Uni) : List (Param × Option Arg) → Subs → Out
  | [], r => some (some r)
  | (p, a) :: rest, r =>
    match unifyParam U p a r with
    | some (some r') => unifySig U rest r'
    | x => x

/-- `Operation.__type_rule__` (377-412). -/
def typeRule (T : Table) (K : Classes) (n : Nat) (s : Sig) (as : List Ty) (ks : List (Nat × Ty)) : Option Ty :=
  match s.ret with
  | none => some (.con K.object)
  | some ret =>
    if fvs ret = [] then some ret
    else
      match bind s.params as ks with
      | none => none
      | some b =>
        match unifySig (unify T n) b [] with
        | some (some r) => substitute r n ret
        | _ => none

/-- `_CallableTerm.__call__(self: Callable[P, T], *args: P.args, **kwargs: P.kwargs) -> T`. -/
def callSig (K : Classes) : Sig where
  params :=
    [⟨0, .posOrKw, some (.gen K.callable [.var 0, .var 1]), false⟩, ⟨1, .varPos, some .any, false⟩,
      ⟨2, .varKw, some .any, false⟩]
  ret := some (.var 1)

/-- `deffn(body: T, *args: Operation, **kwargs: Operation) -> Callable[..., T]`. -/
def deffnSig (K : Classes) : Sig where
  params :=
    [⟨0, .posOrKw, some (.var 0), false⟩, ⟨1, .varPos, some (.con K.operation), false⟩,
      ⟨2, .varKw, some (.con K.operation), false⟩]
  ret := some (.gen K.callable [.ell, .var 0])

/-! ## Specification -/

/-- What the table says about `Callable`: it is canonical, and has no bases. -/
structure CallTable (T : Table) (K : Classes) : Prop where
  callable_cn : T.cn K.callable = K.callable
  callable_refl : T.sub K.callable K.callable = true
  callable_not : K.callable ≠ T.tuple ∧ K.callable ≠ T.mapping ∧ K.callable ≠ T.generator
  callable_bases : T.bases K.callable = []

/-- What the table says about `Operation`: it is canonical, and `Operation[P, R]` is a `Callable[P, R]`. -/
structure FnTable (T : Table) (K : Classes) : Prop extends CallTable T K where
  operation_cn : T.cn K.operation = K.operation
  sub : T.sub K.operation K.callable = true
  ne : K.callable ≠ K.operation
  operation_not : K.operation ≠ T.tuple ∧ K.operation ≠ T.mapping ∧ K.operation ≠ T.generator
  operation_bases : T.bases K.operation = [(K.callable, fun ss => some (.gen K.callable ss))]

/-- A parameter with an annotation that takes one positional argument. -/
def Plain (p : Param) : Prop := (p.kind = .posOnly ∨ p.kind = .posOrKw) ∧ ∃ t, p.ann = some t

/-- The value `f` takes arguments of the types `ps` to results of the type `r`. -/
def Takes {V : Type} (has : V → Ty → Prop) (ap : V → List V → V) (f : V) (ps : List Ty) (r : Ty) : Prop :=
  ∀ vs, vs.length = ps.length → (∀ p ∈ vs.zip ps, has p.1 p.2) → has (ap f vs) r

/-- The arguments that are the value of a parameter. -/
def values : Option Arg → List Ty
  | none => []
  | some (.one t) => [t]
  | some (.many ts) => ts

/-! ## Lemmas -/

variable {T : Table} {K : Classes}

mutual
theorem beq_refl : ∀ t : Ty, Ty.beq t t = true
  | .var _ => by simp [Ty.beq]
  | .con _ => by simp [Ty.beq]
  | .any => rfl
  | .ell => rfl
  | .gen _ ts => by simp [Ty.beq, beqs_refl ts]
  | .union ts => by simp [Ty.beq, beqs_refl ts]
  | .seq ts => by simp [Ty.beq, beqs_refl ts]
theorem beqs_refl : ∀ ts : List Ty, Ty.beqs ts ts = true
  | [] => rfl
  | t :: ts => by simp [Ty.beqs, beq_refl t, beqs_refl ts]
end

theorem beq_false {t s : Ty} (h : t ≠ s) : Ty.beq t s = false := by
  cases hb : Ty.beq t s with
  | false => rfl
  | true => exact absurd (beq_eq _ _ hb) h

theorem unify_refl (n : Nat) (t : Ty) (r : Subs) : unify T (n + 1) t t r = some (some r) := by
  simp [unify, unifyCanon, beq_refl]

theorem ground_ne_var {t : Ty} (h : Ground t) (v : Nat) : t ≠ .var v := by
  rintro rfl
  simp [Ground, fvs] at h

theorem unify_var (n : Nat) {v : Nat} {s : Ty} {r : Subs} (hs : Ground s) (hv : get r v = none) :
    unify T (n + 2) (.var v) s r = some (some ((v, canon T s) :: r)) := by
  have hg : Ground (canon T s) := ground_canon hs
  have hne := ground_ne_var hg
  rw [show n + 2 = (n + 1) + 1 from rfl, unify]
  simp only [canon, unifyCanon, beq_false (hne v).symm, isVar, Bool.true_or, if_true]
  have : unifyVar T (unify T (n + 1)) (.var v) (canon T s) r
      = unify T (n + 1) ((get r v).getD (canon T s)) (canon T s) (add v (canon T s) r) := by
    unfold unifyVar
    split
    · next h => exact absurd h (hne _)
    · next a _ h1 _ => cases h1; rfl
    · next h => exact absurd rfl (h _)
    · next h0 _ _ => exact absurd rfl (h0 _)
  rw [if_neg (by simp), this, hv, Option.getD_none, unify_refl]
  simp [add, hv]

/-- Types of arguments: without type variables, and not a list of types. -/
inductive Argument : Ty → Prop
  | con (c) : Argument (.con c)
  | any : Argument .any
  | ell : Argument .ell
  | gen (c) {ts} : fvsL ts = [] → Argument (.gen c ts)
  | union {ts} : (∀ t ∈ ts, Argument t) → Argument (.union ts)

theorem Argument.ground {t : Ty} (h : Argument t) : Ground t := by
  induction h with
  | union _ ih => exact fvsL_nil ih
  | gen _ h => exact h
  | _ => rfl

/-- `Any` takes all types. -/
theorem canon_any (hI : IdemTable T) {s : Ty} (h : Argument s) :
    ∃ N, ∀ n ≥ N, ∀ r, unifyCanon T (unify T n) .any (canon T s) r = some (some r) := by
  induction h with
  | con c => exact ⟨0, fun n _ r => by simp [canon, unifyCanon, Ty.beq, isVar, isSeq, isUnion, isGen, isAny]⟩
  | any => exact ⟨0, fun n _ r => by simp [canon, unifyCanon, Ty.beq]⟩
  | ell => exact ⟨0, fun n _ r => by simp [canon, unifyCanon, Ty.beq, isVar, isSeq, isUnion, isGen, isAny]⟩
  | gen c hts =>
    refine ⟨1, fun n hn r => ?_⟩
    obtain ⟨m, rfl⟩ : ∃ m, n = m + 1 := ⟨n - 1, by omega⟩
    simp [canon, unifyCanon, Ty.beq, isVar, isSeq, isUnion, isGen, unifyGen, unify, isAny]
  | @union ts _ ih =>
    have hall : ∀ us : List Ty, (∀ t ∈ us, t ∈ ts) → ∃ N, ∀ n ≥ N, ∀ r,
        fold (unify T n) ((canons T us).map fun a => (Ty.any, a)) r = some (some r) := by
      intro us
      induction us with
      | nil => intro _; exact ⟨0, fun n _ r => rfl⟩
      | cons u us ihu =>
        intro hus
        obtain ⟨N, hN⟩ := ih u (hus u List.mem_cons_self)
        obtain ⟨M, hM⟩ := ihu fun t ht => hus t (List.mem_cons_of_mem _ ht)
        refine ⟨N + M + 1, fun n hn r => ?_⟩
        obtain ⟨m, rfl⟩ : ∃ m, n = m + 1 := ⟨n - 1, by omega⟩
        have h1 : unify T (m + 1) .any (canon T u) r = some (some r) := by
          simp only [unify, canon_idem hI]
          exact hN m (by omega) r
        simp only [canons, List.map_cons, fold, h1]
        exact hM (m + 1) (by omega) r
    obtain ⟨N, hN⟩ := hall ts fun _ h => h
    refine ⟨N, fun n hn r => ?_⟩
    simp only [canon, unifyCanon, Ty.beq, isVar, isSeq, isUnion, unifyUnion, Bool.or_self, Bool.or_true,
      if_true, Bool.false_eq_true, if_false]
    exact hN n hn r

theorem unify_any (hI : IdemTable T) {s : Ty} (h : Argument s) :
    ∃ N, ∀ n ≥ N, ∀ r, unify T n .any s r = some (some r) := by
  obtain ⟨N, hN⟩ := canon_any hI h
  refine ⟨N + 1, fun n hn r => ?_⟩
  obtain ⟨m, rfl⟩ : ∃ m, n = m + 1 := ⟨n - 1, by omega⟩
  exact hN m (by omega) r

theorem fold_const {t : Ty} (ss : List Ty) (h : ∀ s ∈ ss, ∃ N, ∀ n ≥ N, ∀ r, unify T n t s r = some (some r)) :
    ∃ N, ∀ n ≥ N, ∀ r, fold (unify T n) (ss.map fun s => (t, s)) r = some (some r) := by
  induction ss with
  | nil => exact ⟨0, fun n _ r => rfl⟩
  | cons s ss ih =>
    obtain ⟨N, hN⟩ := h s List.mem_cons_self
    obtain ⟨M, hM⟩ := ih fun t ht => h t (List.mem_cons_of_mem _ ht)
    refine ⟨N + M, fun n hn r => ?_⟩
    simp only [List.map_cons, fold, hN n (by omega) r]
    exact hM n (by omega) r

/-- A variadic parameter with an annotation that takes all the arguments binds nothing. -/
theorem unifyParam_var {p : Param} {t : Ty} (hp : p.ann = some t) (hk : p.kind.isVar = true) (ss : List Ty) (b : Bool)
    (h : ∀ s ∈ ss, ∃ N, ∀ n ≥ N, ∀ r, unify T n t s r = some (some r)) :
    ∃ N, ∀ n ≥ N, ∀ r, unifyParam (unify T n) p (if b then none else some (.many ss)) r = some (some r) := by
  obtain ⟨N, hN⟩ := fold_const ss h
  refine ⟨N, fun n hn r => ?_⟩
  cases b <;> simp [unifyParam, hp, hk, hN n hn r]

/-- `Callable[P, T]` against `Callable[a, q]`. -/
theorem unify_callable (hK : CallTable T K) (n : Nat) {a q : Ty} (ha : Ground a) (hq : Ground q) :
    unify T (n + 4) (.gen K.callable [.var 0, .var 1]) (.gen K.callable [a, q]) []
      = some (some [(1, canon T (canon T (canon T q))), (0, canon T (canon T (canon T a)))]) := by
  obtain ⟨h1, h2, h3⟩ := hK.callable_not
  have ga : Ground (canon T a) := ground_canon ha
  have gq : Ground (canon T q) := ground_canon hq
  have gga : Ground (canon T (canon T a)) := ground_canon ga
  have ggq : Ground (canon T (canon T q)) := ground_canon gq
  have hb1 : ∀ c d : Nat, Ty.beq (.gen c [.var 0, .var 1]) (.gen d [canon T a, canon T q]) = false := fun c d =>
    beq_false fun h => by
      simp only [Ty.gen.injEq, List.cons.injEq] at h
      exact ground_ne_var ga 0 h.2.1.symm
  have hb2 : Ty.beq (.seq [.var 0, .var 1]) (.seq [canon T (canon T a), canon T (canon T q)]) = false :=
    beq_false fun h => by
      simp only [Ty.seq.injEq, List.cons.injEq] at h
      exact ground_ne_var gga 0 h.1.symm
  rw [show n + 4 = (n + 3) + 1 from rfl, unify]
  simp only [canon, canons, unifyCanon, hb1, hK.callable_cn, isVar, isSeq,
    isUnion, isGen, unifyGen, hK.callable_refl, h1, h2, h3, Bool.or_self, Bool.false_eq_true,
    if_false, if_true, false_and]
  rw [show n + 3 = (n + 2) + 1 from rfl, unify]
  simp only [canon, canons, unifyCanon, hb2, isVar, isSeq, unifySeq, isEll,
    List.length_cons, List.length_nil, List.zip_cons_cons, List.zip_nil_left, Bool.or_self, Bool.false_eq_true,
    if_false, if_true, fold]
  rw [unify_var n gga rfl]
  simp only
  rw [unify_var n ggq (by simp [get, List.lookup])]

theorem unify_operation (hK : FnTable T K) (hI : IdemTable T) (n : Nat) (ts ss : List Ty) (r : Subs) :
    unify T (n + 1) (.gen K.callable ts) (.gen K.operation ss) r = unify T n (.gen K.callable ts) (.gen K.callable ss) r := by
  obtain ⟨h1, h2, h3⟩ := hK.operation_not
  have hb : Ty.beq (.gen K.callable (canons T ts)) (.gen K.operation (canons T ss)) = false :=
    beq_false fun h => by
      simp only [Ty.gen.injEq] at h
      exact hK.ne h.1
  rw [unify]
  simp only [canon, hK.callable_cn, hK.operation_cn, unifyCanon, hb, isVar, isSeq, isUnion, isGen, unifyGen, hK.sub, h1, h2, h3,
    hK.ne, findBase, hK.operation_bases, hK.callable_refl, Bool.or_self, Bool.false_eq_true, if_false, if_true, false_and]
  cases n with
  | zero => rfl
  | succ n => simp only [unify, canon, hK.callable_cn, canons_idem hI]

theorem unify_con_operation (hK : FnTable T K) (n : Nat) (ss : List Ty) (r : Subs) :
    unify T (n + 2) (.con K.operation) (.gen K.operation ss) r = some (some r) := by
  rw [show n + 2 = (n + 1) + 1 from rfl, unify]
  simp only [canon, hK.operation_cn, unifyCanon, Ty.beq, isVar, isSeq, isUnion, isGen, unifyGen, Bool.or_self, Bool.or_true,
    Bool.false_eq_true, if_false, if_true]
  exact unify_refl n _ r

/-! ## The property -/

/-- **C100.** The type of a function with a signature: `Callable[[A1, …], R]` exactly if the result and all parameters are
annotated and all parameters take one positional argument, `Callable[..., R]` if the result is annotated but some parameter is
not like that, and its class, which for Python functions is the same as `Callable[..., Any]`, if the result is not annotated. -/
theorem C100_type (k : Callee) (s : Sig) :
    (∀ r ts, s.ret = some r → (∀ p ∈ s.params, Plain p) → s.params.map Param.ann = ts.map some →
      callableTy K k (.sig s) = .gen K.callable [.seq ts, r]) ∧
    (∀ r, s.ret = some r → (∃ p ∈ s.params, ¬ Plain p) → callableTy K k (.sig s) = .gen K.callable [.ell, r]) ∧
    (s.ret = none → callableTy K k (.sig s) = bare K k) := by
  have himp : ∀ p : Param, imprecise p = true ↔ ¬ Plain p := by
    intro p
    cases ha : p.ann <;> cases hk : p.kind <;> simp [imprecise, Plain, ha, hk]
  refine ⟨fun r ts hr hp hts => ?_, fun r hr hp => ?_, fun hr => ?_⟩
  · have : s.params.any imprecise = false := by
      rw [List.any_eq_false]
      intro p hpm
      rw [himp]
      exact not_not_intro (hp p hpm)
    simp only [callableTy, hr, this, Bool.false_eq_true, if_false]
    congr 3
    have : s.params.map (fun p => p.ann.getD .any) = (s.params.map Param.ann).map (fun o => o.getD .any) := by
      rw [List.map_map]; rfl
    rw [this, hts, List.map_map]
    simp [Function.comp_def]
  · obtain ⟨p, hpm, hp⟩ := hp
    have : s.params.any imprecise = true := List.any_eq_true.2 ⟨p, hpm, (himp p).2 hp⟩
    simp only [callableTy, hr, this, if_true]
  · simp only [callableTy, hr]

/-- **C100.** If the type of a function is `Callable[[A1, …, An], R]` then calls with `n` positional arguments bind the `i`-th
one to the `i`-th parameter, which is annotated `Ai`, and calls with more raise. -/
theorem C100_accepts (k : Callee) (s : Sig) {ts : List Ty} {r : Ty}
    (h : callableTy K k (.sig s) = .gen K.callable [.seq ts, r]) :
    s.ret = some r ∧ s.params.map Param.ann = ts.map some ∧
    (∀ as : List Ty, as.length = ts.length → bind s.params as [] = some (s.params.zip (as.map fun a => some (.one a)))) ∧
    (∀ as : List Ty, ts.length < as.length → bind s.params as [] = none) := by
  have hpl : s.ret = some r ∧ (∀ p ∈ s.params, Plain p) ∧ s.params.map Param.ann = ts.map some := by
    simp only [callableTy] at h
    cases hr : s.ret with
    | none => rw [hr] at h; cases k <;> simp [bare] at h
    | some q =>
      rw [hr] at h
      simp only at h
      split at h
      · simp at h
      · next hany =>
        simp only [Ty.gen.injEq, List.cons.injEq, Ty.seq.injEq, and_true, true_and] at h
        have hall : ∀ p ∈ s.params, imprecise p = false := by
          intro p hp
          cases hi : imprecise p with
          | false => rfl
          | true => exact absurd (List.any_eq_true.2 ⟨p, hp, hi⟩) hany
        refine ⟨by rw [h.2], fun p hp => ?_, ?_⟩
        · have := hall p hp
          cases ha : p.ann <;> cases hk : p.kind <;> simp_all [imprecise, Plain]
        · rw [← h.1, List.map_map]
          refine List.map_congr_left fun p hp => ?_
          have := hall p hp
          cases ha : p.ann <;> simp_all [imprecise]
  obtain ⟨h1, h2, h3⟩ := hpl
  have hlen : s.params.length = ts.length := by simpa using congrArg List.length h3
  refine ⟨h1, h3, fun as ha => ?_, fun as ha => ?_⟩
  · rw [← hlen] at ha
    clear h h3 hlen h1
    generalize s.params = ps at h2 ha
    induction ps generalizing as with
    | nil => cases as with
      | nil => rfl
      | cons => simp at ha
    | cons p ps ih => cases as with
      | nil => simp at ha
      | cons a as =>
        have := ih as (fun q hq => h2 q (List.mem_cons_of_mem _ hq)) (by simpa using ha)
        rcases (h2 p List.mem_cons_self).1 with hk | hk <;> simp [bind, hk, this]
  · rw [← hlen] at ha
    clear h h3 hlen h1
    generalize s.params = ps at h2 ha
    induction ps generalizing as with
    | nil => cases as with
      | nil => simp at ha
      | cons => simp [bind]
    | cons p ps ih => cases as with
      | nil => simp at ha
      | cons a as =>
        have := ih as (fun q hq => h2 q (List.mem_cons_of_mem _ hq)) (by simpa using ha)
        rcases (h2 p List.mem_cons_self).1 with hk | hk <;> simp [bind, hk, this]

/-- **C100.** An operation is a callable: where a `Callable[…]` is expected, an operation gives the same result as a function
with the same signature, up to the fuel; an operation whose result is not annotated gives its class. -/
theorem C100_operation (hK : FnTable T K) (hI : IdemTable T) (s : Sig) (k : Callee) (ts : List Ty) (q : Subs) :
    (s.ret ≠ none → ∀ n, unify T (n + 1) (.gen K.callable ts) (operationTy K (.sig s)) q
      = unify T n (.gen K.callable ts) (callableTy K k (.sig s)) q) ∧
    (s.ret = none → operationTy K (.sig s) = .con K.operation) := by
  refine ⟨fun hr n => ?_, fun hr => by simp [operationTy, callableTy, hr, bare]⟩
  obtain ⟨r, hr⟩ := Option.ne_none_iff_exists'.1 hr
  cases hany : s.params.any imprecise <;>
    simp only [operationTy, callableTy, hr, hany, Bool.false_eq_true, if_false, if_true, unify_operation hK hI]

theorem call_type (hI : IdemTable T) {f q : Ty} {ρ : Subs}
    (hf : ∃ N, ∀ n ≥ N, unify T n (.gen K.callable [.var 0, .var 1]) f [] = some (some ρ))
    (hρ : get ρ 1 = some q) (hq : Ground q) {as : List Ty} {ks : List (Nat × Ty)}
    (has : ∀ s ∈ as, Argument s) (hks : ∀ k ∈ ks, Argument k.2) (hself : ks.lookup 0 = none) :
    ∃ N, ∀ n ≥ N, typeRule T K n (callSig K) (f :: as) ks = some q := by
  obtain ⟨N1, h1⟩ := hf
  obtain ⟨N2, h2⟩ := unifyParam_var (T := T) (p := ⟨1, .varPos, some .any, false⟩) rfl rfl as as.isEmpty
    fun s hs => unify_any hI (has s hs)
  obtain ⟨N3, h3⟩ := unifyParam_var (T := T) (p := ⟨2, .varKw, some .any, false⟩) rfl rfl (ks.map Prod.snd) ks.isEmpty
    (fun s hs => by
      obtain ⟨k, hk, rfl⟩ := List.mem_map.1 hs
      exact unify_any hI (hks k hk))
  refine ⟨N1 + N2 + N3 + sizeOf q + 2, fun n hn => ?_⟩
  have hb : bind (callSig K).params (f :: as) ks = some
      [(⟨0, .posOrKw, some (.gen K.callable [.var 0, .var 1]), false⟩, some (.one f)),
        (⟨1, .varPos, some .any, false⟩, if as.isEmpty then none else some (.many as)),
        (⟨2, .varKw, some .any, false⟩, if ks.isEmpty then none else some (.many (ks.map Prod.snd)))] := by
    simp [callSig, bind, hself]
  obtain ⟨m, rfl⟩ : ∃ m, n = m + 1 := ⟨n - 1, by omega⟩
  have hs : substitute ρ (m + 1) (.var 1) = some q := by
    simp only [substitute, hρ]
    exact substitute_ground ρ m q (by omega) hq
  have h1' : unifyParam (unify T (m + 1)) ⟨0, .posOrKw, some (.gen K.callable [.var 0, .var 1]), false⟩ (some (.one f)) []
      = some (some ρ) := by
    simp only [unifyParam, Kind.isVar, Bool.false_eq_true, if_false]
    exact h1 (m + 1) (by omega)
  have hret : (callSig K).ret = some (.var 1) := rfl
  simp only [typeRule, hret, fvs, hb, unifySig, h1', h2 (m + 1) (by omega), h3 (m + 1) (by omega), hs]
  simp

/-- **C100.** A call of a function or an operation has the type of its results, whatever the arguments are. -/
theorem C100_call (hI : IdemTable T) (hK : FnTable T K) {c : Nat} (hc : c = K.callable ∨ c = K.operation) {a q : Ty}
    (ha : Ground a) (hq : Ground q) {as : List Ty} {ks : List (Nat × Ty)}
    (has : ∀ s ∈ as, Argument s) (hks : ∀ k ∈ ks, Argument k.2) (hself : ks.lookup 0 = none) :
    ∃ N, ∀ n ≥ N, typeRule T K n (callSig K) (.gen c [a, q] :: as) ks = some (canon T q) := by
  refine call_type hI (ρ := [(1, canon T q), (0, canon T a)]) ?_ (by simp [get]) (ground_canon hq) has hks hself
  refine ⟨5, fun n hn => ?_⟩
  obtain ⟨m, rfl⟩ : ∃ m, n = m + 4 + 1 := ⟨n - 5, by omega⟩
  rcases hc with rfl | rfl
  · rw [show m + 4 + 1 = (m + 1) + 4 by omega, unify_callable hK.toCallTable _ ha hq]
    simp only [canon_idem hI]
  · rw [unify_operation hK hI, unify_callable hK.toCallTable _ ha hq]
    simp only [canon_idem hI]

/-- Types of operations: `Operation`, or an alias of it. -/
def IsOperation (K : Classes) (t : Ty) : Prop := t = .con K.operation ∨ ∃ ts, t = .gen K.operation ts

theorem operationTy_is (i : Intro) : IsOperation K (operationTy K i) := by
  unfold operationTy
  split
  · exact .inr ⟨_, rfl⟩
  · exact .inl rfl

/-- **C100.** The type of a lambda is `Callable[..., T]` for the type `T` of its body, whatever its variables are. -/
theorem C100_deffn (hK : FnTable T K) {b : Ty} (hb : Ground b) {as : List Ty} {ks : List (Nat × Ty)}
    (has : ∀ s ∈ as, IsOperation K s) (hks : ∀ k ∈ ks, IsOperation K k.2) (hbody : ks.lookup 0 = none) :
    ∃ N, ∀ n ≥ N, typeRule T K n (deffnSig K) (b :: as) ks = some (.gen K.callable [.ell, canon T b]) := by
  have hop : ∀ s, IsOperation K s → ∃ N, ∀ n ≥ N, ∀ r, unify T n (.con K.operation) s r = some (some r) := by
    rintro s (rfl | ⟨ts, rfl⟩)
    · refine ⟨1, fun n hn r => ?_⟩
      obtain ⟨m, rfl⟩ : ∃ m, n = m + 1 := ⟨n - 1, by omega⟩
      exact unify_refl m _ r
    · refine ⟨2, fun n hn r => ?_⟩
      obtain ⟨m, rfl⟩ : ∃ m, n = m + 2 := ⟨n - 2, by omega⟩
      exact unify_con_operation hK m _ r
  obtain ⟨N2, h2⟩ := unifyParam_var (T := T) (p := ⟨1, .varPos, some (.con K.operation), false⟩) rfl rfl as as.isEmpty
    fun s hs => hop s (has s hs)
  obtain ⟨N3, h3⟩ := unifyParam_var (T := T) (p := ⟨2, .varKw, some (.con K.operation), false⟩) rfl rfl (ks.map Prod.snd)
    ks.isEmpty (fun s hs => by
      obtain ⟨k, hk, rfl⟩ := List.mem_map.1 hs
      exact hop k.2 (hks k hk))
  have hg : GroundSubs [(0, canon T b)] := by
    intro v t hv
    simp only [get, List.lookup] at hv
    split at hv
    · cases hv; exact ground_canon hb
    · cases hv
  obtain ⟨N4, h4⟩ := substitute_inst hg (.gen K.callable [.ell, .var 0])
  refine ⟨N2 + N3 + N4 + 2, fun n hn => ?_⟩
  have hbd : bind (deffnSig K).params (b :: as) ks = some
      [(⟨0, .posOrKw, some (.var 0), false⟩, some (.one b)),
        (⟨1, .varPos, some (.con K.operation), false⟩, if as.isEmpty then none else some (.many as)),
        (⟨2, .varKw, some (.con K.operation), false⟩, if ks.isEmpty then none else some (.many (ks.map Prod.snd)))] := by
    simp [deffnSig, bind, hbody]
  obtain ⟨m, rfl⟩ : ∃ m, n = m + 2 := ⟨n - 2, by omega⟩
  have h1' : unifyParam (unify T (m + 2)) ⟨0, .posOrKw, some (.var 0), false⟩ (some (.one b)) []
      = some (some [(0, canon T b)]) := by
    simp only [unifyParam, Kind.isVar, Bool.false_eq_true, if_false]
    exact unify_var m hb rfl
  have hret : (deffnSig K).ret = some (.gen K.callable [.ell, .var 0]) := rfl
  simp only [typeRule, hret, fvs, fvsL, hbd, unifySig, h1', h2 (m + 2) (by omega), h3 (m + 2) (by omega), h4 (m + 2) (by omega)]
  simp [inst, insts, get]

/-- **C100.** So the type of a lambda applied to arguments is the type of its body. -/
theorem C100_beta (hI : IdemTable T) (hK : FnTable T K) {b : Ty} (hb : Ground b) {xs as : List Ty} {kxs ks : List (Nat × Ty)}
    (hxs : ∀ s ∈ xs, IsOperation K s) (hkxs : ∀ k ∈ kxs, IsOperation K k.2) (hbody : kxs.lookup 0 = none)
    (has : ∀ s ∈ as, Argument s) (hks : ∀ k ∈ ks, Argument k.2) (hself : ks.lookup 0 = none) :
    ∃ N, ∀ n ≥ N, ∃ f, typeRule T K n (deffnSig K) (b :: xs) kxs = some f ∧
      typeRule T K n (callSig K) (f :: as) ks = some (canon T b) := by
  obtain ⟨N1, h1⟩ := C100_deffn hK hb hxs hkxs hbody
  obtain ⟨N2, h2⟩ := C100_call hI hK (.inl rfl) (a := .ell) rfl (ground_canon (T := T) hb) has hks hself
  refine ⟨N1 + N2, fun n hn => ⟨_, h1 n (by omega), ?_⟩⟩
  rw [h2 n (by omega), canon_idem hI]

theorem desc_seq_inv : ∀ us ws, Desc T (.seq us) (.seq ws) → us.length = ws.length ∧ ∀ p ∈ us.zip ws, Desc T p.1 p.2 := by
  intro us
  induction us with
  | nil =>
    intro ws hd
    cases hd <;> simp
  | cons u us ih =>
    intro ws hd
    have key : ∀ w ws, Desc T u w → Desc T (.seq us) (.seq ws) →
        (u :: us).length = (w :: ws).length ∧ ∀ p ∈ (u :: us).zip (w :: ws), Desc T p.1 p.2 := by
      intro w ws hd1 hd2
      obtain ⟨h1, h2⟩ := ih _ hd2
      refine ⟨by simp [h1], fun p hp => ?_⟩
      rcases List.mem_cons.1 hp with rfl | hp
      · exact hd1
      · exact h2 p hp
    cases hd with
    | refl => exact key u us (.refl _) (.refl _)
    | cons hd1 hd2 => exact key _ _ hd1 hd2

theorem desc_callable_inv (hK : CallTable T K) {A B : List Ty} {r q : Ty}
    (h : Desc T (.gen K.callable [.seq A, r]) (.gen K.callable [.seq B, q])) :
    A.length = B.length ∧ (∀ p ∈ A.zip B, Desc T p.1 p.2) ∧ Desc T r q := by
  obtain ⟨h1, h2, h3⟩ := hK.callable_not
  have fin : Desc T (.seq [.seq A, r]) (.seq [.seq B, q]) → _ := fun hd => by
    obtain ⟨_, hp⟩ := desc_seq_inv _ _ hd
    obtain ⟨ha, hb⟩ := desc_seq_inv _ _ (hp (.seq A, .seq B) (by simp))
    exact (⟨ha, hb, hp (r, q) (by simp)⟩ : A.length = B.length ∧ (∀ p ∈ A.zip B, Desc T p.1 p.2) ∧ Desc T r q)
  generalize ht : Ty.gen K.callable [.seq A, r] = t at h
  generalize hs : Ty.gen K.callable [.seq B, q] = s at h
  cases h with
  | refl =>
    rw [← hs] at ht
    simp only [Ty.gen.injEq, List.cons.injEq, true_and, and_true] at ht
    exact fin (by rw [ht.1, ht.2]; exact .refl _)
  | args hd =>
    simp only [Ty.gen.injEq] at ht hs
    rw [← ht.2, ← hs.2] at hd
    exact fin hd
  | tuple => simp only [Ty.gen.injEq] at hs; exact absurd hs.1 h1
  | keys _ hd =>
    simp only [Ty.gen.injEq] at hs
    rw [← hs.1] at hd
    rcases hd with hd | hd
    · exact absurd hd h2
    · exact absurd hd h3
  | base _ he =>
    simp only [Ty.gen.injEq] at hs
    rw [← hs.1, hK.callable_bases] at he
    cases he
  | _ => first | (cases ht; done) | (cases hs; done)

/-- **C100.** A function that is an argument for a parameter annotated `Callable[[A1, …], R]`, and for which unification
succeeds, takes arguments of the types `A1`, … to results of the type `R` with the type variables replaced, if each `Ai` is a
subtype of the annotation of its parameter: unification compares parameters in the other direction. -/
theorem C100_sound_partial {V : Type} {kinds generic : Nat → Bool} {mk : Nat → List V → V} {has : V → Ty → Prop}
    (hT : GroundTable T) (hI : IdemTable T) (hG : GenericTable T generic) (hK : CallTable T K) (hM : Meaning T kinds mk has)
    {ps qs : List Ty} {r q : Ty} {ρ : Subs} {n : Nat} (hc : generic K.callable = true) (hqs : ∀ t ∈ qs, Exact generic t)
    (hq : Exact generic q) (hr : Formed generic r)
    (h : unify T n (.gen K.callable [.seq ps, r]) (.gen K.callable [.seq qs, q]) [] = some (some ρ))
    (hcontra : ∀ p ∈ ps.zip qs, Sub T p.2 (inst ρ p.1))
    (ap : V → List V → V) (f : V) (hf : Takes has ap f qs q) : Takes has ap f (ps.map (inst ρ)) (canon T (inst ρ r)) := by
  have hex : Exact generic (.gen K.callable [.seq qs, q]) := by
    refine .gen hc fun t ht => ?_
    simp only [List.mem_cons, List.not_mem_nil, or_false] at ht
    rcases ht with rfl | rfl
    · exact .seq hqs
    · exact hq
  have hnil : ExactSubs T generic [] := by intro v t hv; simp [get] at hv
  have hρ := unify_exact hI hG n _ _ [] ρ hex hnil h
  obtain ⟨_, _, hd⟩ := unify_sound hT hI n _ _ [] ρ hex.ground (by intro v t hv; simp [get] at hv) h
  simp only [inst, insts, canon, canons, hK.callable_cn] at hd
  obtain ⟨hlen, _, hres⟩ := desc_callable_inv hK hd
  have hl' : ps.length = qs.length := by
    rw [canons_eq_map, canons_eq_map, insts_eq_map] at hlen
    simpa using hlen
  intro vs hl hvs
  have hsub : Sub T (canon T (inst ρ r)) (canon T q) := desc_sub hG hres ((hr.inst hρ).canon hG) (hq.canon hG)
  refine hM.sub _ _ _ hsub (hM.canon _ _ (hf vs (by simpa [hl'] using hl) fun p hp => ?_))
  obtain ⟨i, hi, rfl⟩ := List.mem_iff_getElem.1 hp
  simp only [List.length_zip, Nat.lt_min] at hi
  simp only [List.getElem_zip]
  have hip : i < ps.length := by omega
  have h1 := hvs (vs[i], inst ρ ps[i]) (by
    refine List.mem_iff_getElem.2 ⟨i, by simp; omega, by simp⟩)
  have h2 := hcontra (ps[i], qs[i]) (List.mem_iff_getElem.2 ⟨i, by simp; omega, by simp⟩)
  exact hM.sub _ _ _ h2 h1

theorem perm_without {k : Nat} {t : Ty} : ∀ {ks : List (Nat × Ty)}, (ks.map Prod.fst).Nodup → ks.lookup k = some t →
    (t :: (without k ks).map Prod.snd).Perm (ks.map Prod.snd) ∧ ((without k ks).map Prod.fst).Nodup := by
  intro ks
  induction ks with
  | nil => intro _ h; simp at h
  | cons p ks ih =>
    obtain ⟨j, u⟩ := p
    intro hnd h
    simp only [List.map_cons, List.nodup_cons] at hnd
    by_cases hj : k = j
    · subst hj
      simp only [List.lookup, beq_self_eq_true, Option.some.injEq] at h
      subst h
      have : without k ((k, u) :: ks) = ks := by
        simp only [without, List.filter_cons, bne_self_eq_false, Bool.false_eq_true, if_false]
        refine List.filter_eq_self.2 fun p hp => ?_
        simp only [bne_iff_ne, ne_eq]
        intro hpk
        exact hnd.1 (hpk ▸ List.mem_map_of_mem hp)
      rw [this]
      exact ⟨by simp, hnd.2⟩
    · have hlk : ks.lookup k = some t := by
        simp only [List.lookup] at h
        rwa [show (k == j) = false by simpa using hj] at h
      obtain ⟨h1, h2⟩ := ih hnd.2 hlk
      have : without k ((j, u) :: ks) = (j, u) :: without k ks := by
        simp only [without, List.filter_cons]
        rw [if_pos (by simpa using fun h : j = k => hj h.symm)]
      rw [this]
      refine ⟨?_, ?_⟩
      · simp only [List.map_cons]
        exact (List.Perm.swap _ _ _).trans (h1.cons _)
      · simp only [List.map_cons, List.nodup_cons]
        refine ⟨fun hm => hnd.1 ?_, h2⟩
        obtain ⟨p, hp, hpj⟩ := List.mem_map.1 hm
        exact hpj ▸ List.mem_map_of_mem (List.mem_filter.1 hp).1

/-- **C100.** Binding gives each argument to one parameter: the values of the parameters are the arguments, in some order. -/
theorem C100_bind : ∀ {ps : List Param} {as : List Ty} {ks : List (Nat × Ty)} {b}, (ks.map Prod.fst).Nodup →
    bind ps as ks = some b → b.map Prod.fst = ps ∧ (b.flatMap fun x => values x.2).Perm (as ++ ks.map Prod.snd) := by
  intro ps
  induction ps with
  | nil =>
    intro as ks b _ h
    cases as <;> cases ks <;> simp only [bind, Option.some.injEq, reduceCtorEq] at h
    subst h
    exact ⟨rfl, by simp⟩
  | cons p ps ih =>
    intro as ks b hnd h
    have skip : ∀ {as : List Ty} {x : Option Arg}, values x = [] →
        (bind ps as ks).map (fun b => (p, x) :: b) = some b →
        b.map Prod.fst = p :: ps ∧ (b.flatMap fun x => values x.2).Perm (as ++ ks.map Prod.snd) := by
      intro as x hx h
      obtain ⟨b', hb, rfl⟩ := Option.map_eq_some_iff.1 h
      obtain ⟨h1, h2⟩ := ih hnd hb
      exact ⟨by simp [h1], by simpa [hx] using h2⟩
    have pos : ∀ {a as}, (bind ps as ks).map (fun b => (p, some (.one a)) :: b) = some b →
        b.map Prod.fst = p :: ps ∧ (b.flatMap fun x => values x.2).Perm (a :: as ++ ks.map Prod.snd) := by
      intro a as h
      obtain ⟨b', hb, rfl⟩ := Option.map_eq_some_iff.1 h
      obtain ⟨h1, h2⟩ := ih hnd hb
      exact ⟨by simp [h1], by simpa [values] using h2⟩
    have kw : ∀ {k}, ks.lookup p.name = some k →
        (bind ps [] (without p.name ks)).map (fun b => (p, some (.one k)) :: b) = some b →
        b.map Prod.fst = p :: ps ∧ (b.flatMap fun x => values x.2).Perm ([] ++ ks.map Prod.snd) := by
      intro k hk h
      obtain ⟨b', hb, rfl⟩ := Option.map_eq_some_iff.1 h
      obtain ⟨hp, hn⟩ := perm_without hnd hk
      obtain ⟨h1, h2⟩ := ih hn hb
      refine ⟨by simp [h1], ?_⟩
      simp only [List.flatMap_cons, values, List.nil_append, List.singleton_append] at h2 ⊢
      exact (h2.cons _).trans hp
    unfold bind at h
    simp only at h
    split at h
    · split at h
      · exact pos h
      · split at h
        · exact skip rfl h
        · cases h
    · split at h
      · cases h
      · exact pos h
      · next hk => exact kw hk h
      · split at h
        · exact skip rfl h
        · cases h
    · obtain ⟨b', hb, rfl⟩ := Option.map_eq_some_iff.1 h
      obtain ⟨h1, h2⟩ := ih hnd hb
      refine ⟨by simp [h1], ?_⟩
      have : values (if as.isEmpty then none else some (.many as)) = as := by
        cases as <;> simp [values]
      simp only [List.flatMap_cons, this]
      exact h2.append_left as
    · split at h
      · cases h
      · next hk => exact kw hk h
      · split at h
        · exact skip rfl h
        · cases h
    · obtain ⟨b', hb, rfl⟩ := Option.map_eq_some_iff.1 h
      obtain ⟨h1, h2⟩ := ih (by simp) hb
      refine ⟨by simp [h1], ?_⟩
      have : values (if ks.isEmpty then none else some (.many (ks.map Prod.snd))) = ks.map Prod.snd := by
        cases ks <;> simp [values]
      simp only [List.flatMap_cons, this]
      simp only [List.map_nil, List.append_nil] at h2
      exact (h2.append_left _).trans List.perm_append_comm

theorem lookup_without {j k : Nat} (h : j ≠ k) : ∀ ks : List (Nat × Ty), (without k ks).lookup j = ks.lookup j
  | [] => rfl
  | (i, t) :: ks => by
    have ih := lookup_without h ks
    by_cases hi : i = k
    · subst hi
      have : without i ((i, t) :: ks) = without i ks := by simp [without]
      rw [this, ih, List.lookup_cons, show (j == i) = false by simpa using h]
    · have : without k ((i, t) :: ks) = (i, t) :: without k ks := by simp [without, hi]
      rw [this, List.lookup_cons, List.lookup_cons, ih]

/-- **C100.** The value of a keyword-only parameter is the keyword argument of its name. -/
theorem C100_keywords : ∀ {ps : List Param} {as : List Ty} {ks : List (Nat × Ty)} {b}, (ps.map Param.name).Nodup →
    ps.Pairwise (fun p _ => p.kind ≠ .varKw) → bind ps as ks = some b →
    ∀ x ∈ b, x.1.kind = .kwOnly → x.2 = (ks.lookup x.1.name).map Arg.one := by
  intro ps
  induction ps with
  | nil =>
    intro as ks b _ _ h
    cases as <;> cases ks <;> simp only [bind, Option.some.injEq, reduceCtorEq] at h
    subst h
    simp
  | cons p ps ih =>
    intro as ks b hnd hpw h
    simp only [List.map_cons, List.nodup_cons] at hnd
    rw [List.pairwise_cons] at hpw
    have mem : ∀ {as ks b'}, bind ps as ks = some b' → ∀ x ∈ b', x.1.name ≠ p.name := by
      intro as ks b' hb x hx hxp
      refine hnd.1 (hxp ▸ ?_)
      have hfst : ∀ {ps : List Param} {as : List Ty} {ks : List (Nat × Ty)} {b}, bind ps as ks = some b → b.map Prod.fst = ps := by
        intro ps
        induction ps with
        | nil =>
          intro as ks b h
          cases as <;> cases ks <;> simp only [bind, Option.some.injEq, reduceCtorEq] at h
          subst h
          rfl
        | cons p ps ih =>
          intro as ks b h
          have fin : ∀ {as ks} {x : Option Arg}, (bind ps as ks).map (fun b => (p, x) :: b) = some b → b.map Prod.fst = p :: ps := by
            intro as ks x h
            obtain ⟨b', hb, rfl⟩ := Option.map_eq_some_iff.1 h
            simp [ih hb]
          unfold bind at h
          simp only at h
          repeat' split at h
          all_goals first | exact fin h | cases h
      have : x.1 ∈ ps := by
        rw [← hfst hb]
        exact List.mem_map_of_mem hx
      exact List.mem_map_of_mem this
    have step : ∀ {as x}, (p.kind = .kwOnly → x = (ks.lookup p.name).map Arg.one) →
        (bind ps as ks).map (fun b => (p, x) :: b) = some b →
        ∀ x ∈ b, x.1.kind = .kwOnly → x.2 = (ks.lookup x.1.name).map Arg.one := by
      intro as x hx h
      obtain ⟨b', hb, rfl⟩ := Option.map_eq_some_iff.1 h
      intro y hy
      rcases List.mem_cons.1 hy with rfl | hy
      · exact hx
      · exact ih hnd.2 hpw.2 hb y hy
    have kw : ∀ {as k}, ks.lookup p.name = some k →
        (bind ps as (without p.name ks)).map (fun b => (p, some (.one k)) :: b) = some b →
        ∀ x ∈ b, x.1.kind = .kwOnly → x.2 = (ks.lookup x.1.name).map Arg.one := by
      intro as k hk h
      obtain ⟨b', hb, rfl⟩ := Option.map_eq_some_iff.1 h
      intro y hy
      rcases List.mem_cons.1 hy with rfl | hy
      · intro _; simp [hk]
      · intro hyk
        have := ih hnd.2 hpw.2 hb y hy hyk
        rwa [lookup_without (mem hb y hy)] at this
    unfold bind at h
    simp only at h
    split at h
    · next hk =>
      split at h
      · exact step (by simp [hk]) h
      · split at h
        · exact step (by simp [hk]) h
        · cases h
    · next hk =>
      split at h
      · cases h
      · exact step (by simp [hk]) h
      · next hl => exact kw hl h
      · split at h
        · exact step (by simp [hk]) h
        · cases h
    · next hk => exact step (by simp [hk]) h
    · next hk =>
      split at h
      · cases h
      · next hl => exact kw hl h
      · next hl =>
        split at h
        · exact step (by simp [hl]) h
        · cases h
    · next hk =>
      obtain ⟨b', hb, rfl⟩ := Option.map_eq_some_iff.1 h
      cases ps with
      | nil =>
        have : b' = [] := by
          cases as <;> simp [bind] at hb
          exact hb
        subst this
        intro x hx
        rw [List.mem_singleton.1 hx]
        simp [hk]
      | cons q qs => exact absurd hk (hpw.1 q List.mem_cons_self)

/-- The pairs of annotation and type that `_unify_signature` compares. -/
def compared : List (Param × Option Arg) → List (Ty × Ty)
  | [] => []
  | (p, a) :: rest =>
    (match p.ann with
    | none => []
    | some t => (values a).map fun s => (t, s)) ++ compared rest

theorem fold_append (U : Uni) : ∀ (xs ys : List (Ty × Ty)) (q r : Subs), fold U xs q = some (some r) →
    fold U (xs ++ ys) q = fold U ys r
  | [], ys, q, r, h => by
    simp only [fold, Option.some.injEq] at h
    subst h
    rfl
  | (t, s) :: xs, ys, q, r, h => by
    simp only [fold] at h
    simp only [List.cons_append, fold]
    split at h
    · next r' h1 => exact fold_append U xs ys r' r h
    · next hno => exact absurd h (hno r)

theorem unifySig_fold (U : Uni) : ∀ (b : List (Param × Option Arg)) (q r : Subs), unifySig U b q = some (some r) →
    fold U (compared b) q = some (some r)
  | [], q, r, h => h
  | (p, a) :: rest, q, r, h => by
    simp only [unifySig] at h
    split at h
    · next r' h1 =>
      have ih := unifySig_fold U rest r' r h
      refine (fold_append U _ _ q r' ?_).trans ih
      unfold unifyParam at h1
      split at h1
      · next hp => simp only [fold]; exact h1
      · next t hp =>
        split at h1
        · split at h1
          · simpa [values, fold] using h1
          · cases h1
        · split at h1
          · simpa [values] using h1
          · cases h1
        · split at h1
          · cases h1
          · simp only [values, List.map_cons, List.map_nil, fold, h1]
    · next hno => exact absurd h (hno r)

theorem mem_compared {p : Param} {a : Option Arg} {t s : Ty} : ∀ {b : List (Param × Option Arg)}, (p, a) ∈ b →
    p.ann = some t → s ∈ values a → (t, s) ∈ compared b
  | (p', a') :: rest, hm, hp, hs => by
    simp only [compared, List.mem_append]
    rcases List.mem_cons.1 hm with h | h
    · cases h
      left
      simp only [hp]
      exact List.mem_map_of_mem hs
    · exact .inr (mem_compared h hp hs)

theorem compared_ground : ∀ {b : List (Param × Option Arg)}, (∀ x ∈ b, ∀ s ∈ values x.2, Ground s) →
    ∀ c ∈ compared b, Ground c.2
  | (p, a) :: rest, h, c, hc => by
    simp only [compared, List.mem_append] at hc
    rcases hc with hc | hc
    · cases hp : p.ann with
      | none => rw [hp] at hc; cases hc
      | some t =>
        rw [hp] at hc
        obtain ⟨s, hs, rfl⟩ := List.mem_map.1 hc
        exact h _ List.mem_cons_self s hs
    · exact compared_ground (fun x hx => h x (List.mem_cons_of_mem _ hx)) c hc

/-- **C100.** Parameters without annotation are not compared with their arguments. -/
theorem C100_unannotated (U : Uni) : ∀ (b : List (Param × Option Arg)) (r : Subs),
    unifySig U b r = unifySig U (b.filter fun x => x.1.ann.isSome) r
  | [], _ => rfl
  | (p, a) :: rest, r => by
    cases hp : p.ann with
    | none =>
      simp only [List.filter_cons, hp, Option.isSome_none, Bool.false_eq_true, if_false, unifySig, unifyParam]
      exact C100_unannotated U rest r
    | some t =>
      simp only [List.filter_cons, hp, Option.isSome_some, if_true, unifySig]
      split
      · exact C100_unannotated U rest _
      · rfl

example : unifySig (unify exT 5) [(⟨0, .posOrKw, none, false⟩, some (.one .any))] [] = some (some []) := rfl

/-- **C100.** If the result of an operation has no annotation, the type of a call is `object`, and if the annotation has no type
variables, it is the annotation. This holds for all arguments: also for those that do not fit the annotations of the parameters,
and for those that the operation cannot be called with. -/
theorem C100_closed (s : Sig) (as : List Ty) (ks : List (Nat × Ty)) (n : Nat) :
    (s.ret = none → typeRule T K n s as ks = some (.con K.object)) ∧
    ∀ ret, s.ret = some ret → (∀ v, ¬ Occurs v ret) → typeRule T K n s as ks = some ret := by
  refine ⟨fun h => by simp [typeRule, h], fun ret h h' => ?_⟩
  have := (ground_iff ret).2 h'
  unfold Ground at this
  simp [typeRule, h, this]

/-- **C100.** For arguments without type variables: if an operation applied to positional and keyword arguments has a type, then
there are values of the type variables with which the annotation of each parameter describes all its arguments, and the type is
the annotation of the result for these values. -/
theorem C100_rule_partial (hT : GroundTable T) (hI : IdemTable T) {s : Sig} {as : List Ty} {ks : List (Nat × Ty)} {n : Nat}
    {ret u : Ty} (hnd : (ks.map Prod.fst).Nodup) (has : ∀ t ∈ as, Ground t) (hks : ∀ k ∈ ks, Ground k.2)
    (hret : s.ret = some ret) (hv : fvs ret ≠ []) (h : typeRule T K n s as ks = some u) :
    ∃ b ρ, bind s.params as ks = some b ∧ GroundSubs ρ ∧ u = inst ρ ret ∧
      ∀ x ∈ b, ∀ t, x.1.ann = some t → ∀ a ∈ values x.2, Desc T (canon T (inst ρ t)) (canon T a) := by
  simp only [typeRule, hret, hv, if_false] at h
  split at h
  · cases h
  · next b hb =>
    split at h
    · next ρ hρ =>
      have hg : ∀ x ∈ b, ∀ a ∈ values x.2, Ground a := by
        intro x hx a ha
        have := (C100_bind hnd hb).2.mem_iff.1 (List.mem_flatMap.2 ⟨x, hx, ha⟩)
        rcases List.mem_append.1 this with h | h
        · exact has a h
        · obtain ⟨k, hk, rfl⟩ := List.mem_map.1 h
          exact hks k hk
      obtain ⟨h1, h2, h3⟩ := fold_sound hT (unify_sound hT hI n) (compared b) [] ρ (compared_ground hg)
        (by intro v t hv; simp [get] at hv) (unifySig_fold _ _ _ _ hρ)
      exact ⟨b, ρ, hb, h1, substitute_eq h1 h, fun x hx t ht a ha => h3 (t, a) (mem_compared hx ht ha)⟩
    · cases h

/-! ## Examples -/

/-- `Callable` is `10`, `Operation` is `11`, `object` is `99`; `12` is a class with `__call__`. -/
def exK : Classes := ⟨10, 11, 99⟩

def fnT : Table :=
  { exT with
    sub := fun d c => exT.sub d c || (d == 11 && c == 10) || (d == 12 && c == 10)
    bases := fun d => if d = 11 then [(10, fun ss => some (.gen 10 ss))] else exT.bases d }

theorem fnT_idem : IdemTable fnT := exT_idem

theorem fnT_fn : FnTable fnT exK where
  callable_cn := rfl
  operation_cn := rfl
  callable_refl := rfl
  sub := rfl
  ne := by decide
  callable_not := by decide
  operation_not := by decide
  callable_bases := rfl
  operation_bases := rfl

def int : Ty := .con 0
def bool : Ty := .con 1
def userB : Ty := .con 8

/-- `(x: int, y: bool) -> B`. -/
def sigXY : Sig := ⟨[⟨0, .posOnly, some int, false⟩, ⟨1, .posOrKw, some bool, false⟩], some userB⟩

example : (∀ p ∈ sigXY.params, Plain p) ∧ callableTy exK .function (.sig sigXY) = .gen 10 [.seq [int, bool], userB] := by
  refine ⟨?_, rfl⟩
  intro p hp
  simp only [sigXY, List.mem_cons, List.not_mem_nil, or_false] at hp
  rcases hp with rfl | rfl
  · exact ⟨.inl rfl, _, rfl⟩
  · exact ⟨.inr rfl, _, rfl⟩

/-- `(x: int, *ys: bool) -> B` is imprecise, `(x: int)` has no type. -/
example : (∃ p ∈ [Param.mk 0 .posOrKw (some int) false, ⟨1, .varPos, some bool, false⟩], ¬ Plain p) ∧
    callableTy exK .function (.sig ⟨[⟨0, .posOrKw, some int, false⟩, ⟨1, .varPos, some bool, false⟩], some userB⟩)
      = .gen 10 [.ell, userB] ∧
    callableTy exK (.object 12) (.sig ⟨[⟨0, .posOrKw, some int, false⟩], none⟩) = .con 12 := by
  refine ⟨⟨_, List.mem_cons_of_mem _ (List.mem_cons_self ..), ?_⟩, rfl, rfl⟩
  rintro ⟨h | h, _⟩ <;> cases h

/-- An operation `op(x: int, y: bool) -> B` for a parameter `Callable[[int, T], S]`. -/
example : unify fnT 10 (.gen 10 [.seq [int, .var 0], .var 1]) (operationTy exK (.sig sigXY)) []
    = some (some [(1, userB), (0, bool)]) := rfl

/-- `f(1, k=True)` for a function `f` of type `Callable[[int, bool], B]`, and for an operation. -/
example : typeRule fnT exK 20 (callSig exK) [callableTy exK .function (.sig sigXY), int] [(7, bool)] = some userB ∧
    typeRule fnT exK 20 (callSig exK) [operationTy exK (.sig sigXY), .union [int, bool]] [] = some userB := ⟨rfl, rfl⟩

example : Argument (.union [int, bool]) := .union fun t ht => by
  simp only [List.mem_cons, List.not_mem_nil, or_false] at ht
  rcases ht with rfl | rfl <;> exact .con _

/-- `deffn(body, x, k=y)` for a body of type `list[int]`. -/
example : typeRule fnT exK 20 (deffnSig exK) [tlist int, .gen 11 [.seq [], int]] [(5, .con 11)]
    = some (.gen 10 [.ell, .gen 3 [int]]) := rfl

/-- `op(x: T, *ys: T, k: S, **kw: S) -> S` called as `op(1, True, j=x, k=y)`. -/
def exSig : Sig :=
  ⟨[⟨0, .posOrKw, some (.var 0), false⟩, ⟨1, .varPos, some (.var 0), false⟩, ⟨2, .kwOnly, some (.var 1), false⟩,
    ⟨3, .varKw, some (.var 1), false⟩], some (.var 1)⟩

example : bind exSig.params [int, bool] [(7, userB), (2, userB)] = some
    [(⟨0, .posOrKw, some (.var 0), false⟩, some (.one int)), (⟨1, .varPos, some (.var 0), false⟩, some (.many [bool])),
      (⟨2, .kwOnly, some (.var 1), false⟩, some (.one userB)), (⟨3, .varKw, some (.var 1), false⟩, some (.many [userB]))] ∧
    typeRule fnT exK 20 exSig [int, bool] [(7, userB), (2, userB)] = some userB ∧
    ([(7, userB), (2, userB)].map Prod.fst).Nodup ∧ (exSig.params.map Param.name).Nodup ∧
    exSig.params.Pairwise (fun p _ => p.kind ≠ .varKw) :=
  ⟨rfl, rfl, by decide, by decide, by simp [exSig]⟩

/-- With `Callable`, `10`, among the generic classes. -/
def exGeneric' (c : Nat) : Bool := exGeneric c || c == 10

theorem exT_generic' : GenericTable exT exGeneric' := by
  refine ⟨?_, ?_, rfl, ?_⟩
  · intro c d hc h
    simp only [exT, exGeneric', exGeneric, Bool.or_eq_true, Bool.and_eq_true, beq_iff_eq] at *
    omega
  · intro c
    simp only [exT, exGeneric', exGeneric]
    split
    · subst_vars; rfl
    · split
      · subst_vars; rfl
      · rfl
  · intro d e f ss b he hs hb
    simp only [exT] at he
    split at he
    · simp only [List.mem_singleton, Prod.mk.injEq] at he
      rw [he.2] at hb
      cases hb
      exact .gen rfl hs
    · cases he

/-- `C100_sound_partial` applies to `f(x: int) -> bool` for a parameter `Callable[[int], T]`: `T` is `bool`. -/
example (ap : Ex → List Ex → Ex) (f : Ex) (hf : Takes (fun v t => has t v) ap f [int] bool) :
    Takes (fun v t => has t v) ap f [int] bool := by
  have := C100_sound_partial (K := exK) (ps := [int]) (qs := [int]) (r := .var 0) (q := bool) (ρ := [(0, bool)]) (n := 10)
    exT_ground exT_idem exT_generic' ⟨rfl, rfl, by decide, rfl⟩ ex_meaning rfl
    (fun t ht => by rw [List.mem_singleton.1 ht]; exact .con rfl) (.con rfl) (.var 0) rfl
    (fun p hp => by
      simp only [List.zip_cons_cons, List.zip_nil_left, List.mem_singleton] at hp
      subst hp
      exact .refl _) ap f hf
  exact this

/-! ## Where it fails -/

/-- **C100, negation.** Parameters with defaults count as parameters that must be given: `f(x: int, y: int = 0) -> B` can be
called with one argument, but is no argument for a parameter `Callable[[int], T]`. -/
theorem C100_default_fails : ∃ s : Sig, (bind s.params [int] []).isSome = true ∧
    unify fnT 10 (.gen 10 [.seq [int], .var 0]) (callableTy exK .function (.sig s)) [] = some none :=
  ⟨⟨[⟨0, .posOrKw, some int, false⟩, ⟨1, .posOrKw, some int, true⟩], some userB⟩, rfl, rfl⟩

/-- **C100, negation.** Functions with required keyword-only parameters are taken for functions of any arguments. -/
theorem C100_keyword_fails : ∃ s : Sig, bind s.params [int] [] = none ∧
    unify fnT 10 (.gen 10 [.seq [int], .var 0]) (callableTy exK .function (.sig s)) [] = some (some [(0, userB)]) :=
  ⟨⟨[⟨0, .posOrKw, some int, false⟩, ⟨1, .kwOnly, some int, false⟩], some userB⟩, rfl, rfl⟩

/-- **C100, negation.** A function that takes more than needed is rejected: `f(x: int) -> B` takes every `bool`, but is no
argument for a parameter `Callable[[bool], T]`. -/
theorem C100_wider_fails : Sub fnT int bool ∧
    unify fnT 10 (.gen 10 [.seq [bool], .var 0]) (callableTy exK .function (.sig ⟨[⟨0, .posOrKw, some int, false⟩], some userB⟩)) []
      = some none := ⟨.cls rfl, rfl⟩

/-- **C100, negation.** An object whose class has `__call__` with annotations has the type of that method and loses its class:
it is no argument for a parameter annotated with the class, while an object of the same class without annotations is. -/
theorem C100_object_fails :
    unify fnT 10 (.con 12) (callableTy exK (.object 12) (.sig ⟨[⟨0, .posOrKw, some int, false⟩], some int⟩)) [] = some none ∧
    unify fnT 10 (.con 12) (callableTy exK (.object 12) (.sig ⟨[⟨0, .posOrKw, some int, false⟩], none⟩)) [] = some (some []) :=
  ⟨rfl, rfl⟩

/-- `map(f: Callable[[S], T], xs: Sequence[S]) -> T`. -/
def mapSig : Sig :=
  ⟨[⟨0, .posOrKw, some (.gen 10 [.seq [.var 0], .var 1]), false⟩, ⟨1, .posOrKw, some (tseq (.var 0)), false⟩], some (.var 1)⟩

/-- `map(xs: Sequence[S], f: Callable[[S], T]) -> T`. -/
def mapSig' : Sig := ⟨mapSig.params.reverse, mapSig.ret⟩

/-- **C100, negation.** The order of parameters decides: a function of `int` and a sequence of `bool` are accepted if the
function comes first, and rejected if the sequence does. -/
theorem C100_order_fails :
    typeRule fnT exK 20 mapSig [.gen 10 [.seq [int], userB], tseq bool] [] = some userB ∧
    (bind mapSig'.params [tseq bool, .gen 10 [.seq [int], userB]] []).map (fun b => unifySig (unify fnT 20) b []) = some (some none) :=
  ⟨rfl, rfl⟩

/-- **C100, negation.** The rule does not apply defaults: an operation `op(x: T, y: int = 0) -> T` applied to one argument has
no type, and the assertion in `_unify_signature` fails; with the default given, as in terms, it has. -/
theorem C100_omitted_fails :
    (bind [⟨0, .posOrKw, some (.var 0), false⟩, ⟨1, .posOrKw, some int, true⟩] [bool] []).map
      (fun b => unifySig (unify fnT 20) b []) = some (some none) ∧
    typeRule fnT exK 20 ⟨[⟨0, .posOrKw, some (.var 0), false⟩, ⟨1, .posOrKw, some int, true⟩], some (.var 0)⟩ [bool, int] []
      = some bool := ⟨rfl, rfl⟩

end Verif.Unify.Functions
