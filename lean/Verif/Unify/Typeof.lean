import Verif.Unify.C32

/-!
# C77: the type of an expression describes its value

Model of `typeof` (`ops/semantics.py` 251-283) with `_simple_type` (229-248) and `Operation.__type_rule__`
(`ops/types.py` 377-412).

* Expressions are values, collections of one class with expressions as items, and operations applied to positional arguments.
* `_freshen` (`internals/unification.py` 622-653) does nothing for types without type variables, and is left out; the theorems
  are about expressions where types of arguments have none.
* The types inferred for collections are those of C67: the items decide if they all have the same type.
* `none` stands for a TypeError, and for too little fuel of `unify` and `substitute`.
* Literals, typed dicts, bounds and constraints of type variables are left out, as in C32.
-/

namespace Verif.Unify.Typeof

open Verif.Unify

variable {V : Type}

/-- An operation: annotations of its parameters and of its result. -/
structure Op where
  name : Nat
  params : List Ty
  ret : Ty

/-- Expressions. `con` is a value, `coll c es` a collection of class `c` with items `es`. -/
inductive Tm (V : Type) where
  | con (v : V)
  | coll (c : Nat) (es : List (Tm V))
  | app (op : Op) (es : List (Tm V))

/-! ## The model -/

/-- `nested_type` of a collection of class `c` whose items have the types `ts` (`internals/unification.py` 1080-1099). -/
def collTy (c : Nat) : List Ty → Ty
  | [] => .con c
  | t :: ts => if ts.all (fun u => Ty.beq u t) then .gen c [t] else .con c

/-- `Operation.__type_rule__` (377-412) for arguments of the types `tys`. -/
def typeRule (T : Table) (n : Nat) (op : Op) (tys : List Ty) : Option Ty :=
  if fvs op.ret = [] then some op.ret
  else if tys.length = op.params.length then
    match unifySignature T n (op.params.zip tys) [] with
    | some (some r) => substitute r n op.ret
    | _ => none
  else none

mutual

/-- The type computed by evaluation under `{apply: _apply}` (276-281); `ty` is `nested_type` of values. -/
def typeOf (T : Table) (n : Nat) (ty : V → Ty) : Tm V → Option Ty
  | .con v => some (ty v)
  | .coll c es =>
    match typesOf T n ty es with
    | some tys => some (collTy c tys)
    | none => none
  | .app op es =>
    match typesOf T n ty es with
    | some tys => typeRule T n op tys
    | none => none

def typesOf (T : Table) (n : Nat) (ty : V → Ty) : List (Tm V) → Option (List Ty)
  | [] => some []
  | e :: es =>
    match typeOf T n ty e, typesOf T n ty es with
    | some t, some ts => some (t :: ts)
    | _, _ => none

end

/-- `_simple_type` (229-248): the class, or `none` for a union. `object` is the class of everything. -/
def simpleType (object : Nat) : Ty → Option Nat
  | .con c => some c
  | .gen c _ => some c
  | .var _ => some object
  | _ => none

/-- `typeof(e)` for an expression that is an operation applied to arguments. -/
def typeof (T : Table) (n : Nat) (ty : V → Ty) (object : Nat) (e : Tm V) : Option Nat :=
  (typeOf T n ty e).bind (simpleType object)

/-! ## Specification -/

mutual

/-- The value of an expression: `mk` makes collections, `h` are the handlers. -/
def eval (mk : Nat → List V → V) (h : Op → List V → V) : Tm V → V
  | .con v => v
  | .coll c es => mk c (evals mk h es)
  | .app op es => h op (evals mk h es)

def evals (mk : Nat → List V → V) (h : Op → List V → V) : List (Tm V) → List V
  | [] => []
  | e :: es => eval mk h e :: evals mk h es

end

/-- Subtypes: the rules of `Desc` where a value of the type on the right is a value of the type on the left. Missing are those
for `Any` and `...` on the right, and for a class without arguments below an alias with arguments. -/
inductive Sub (T : Table) : Ty → Ty → Prop
  | refl (t) : Sub T t t
  | any (s) : Sub T .any s
  | ell (s) : Sub T .ell s
  | cls {c d} : T.sub d c = true → Sub T (.con c) (.con d)
  | nil : Sub T (.seq []) (.seq [])
  | cons {t s ts ss} : Sub T t s → Sub T (.seq ts) (.seq ss) → Sub T (.seq (t :: ts)) (.seq (s :: ss))
  | unionR {t ss} : (∀ s ∈ ss, Sub T t s) → Sub T t (.union ss)
  | unionL {t s ts} : t ∈ ts → Sub T t s → Sub T (.union ts) s
  | args {c ts ss} : Sub T (.seq ts) (.seq ss) → Sub T (.gen c ts) (.gen c ss)
  | origin {c d ss} : c = d ∨ T.sub d c = true → Sub T (.con c) (.gen d ss)
  | tuple {c ts ss} : T.sub T.tuple c = true →
      (∀ s ∈ ss, Sub T (.gen c ts) (canon T (.gen T.sequence [s]))) → Sub T (.gen c ts) (.gen T.tuple ss)
  | keys {c d a b ts ss} : T.sub d c = true → d = T.mapping ∨ d = T.generator → Sub T a b →
      Sub T (.gen c (a :: ts)) (.gen d (b :: ss))
  | base {c d e f b ts ss} : T.sub d c = true → (e, f) ∈ T.bases d → f ss = some b →
      Sub T (.gen c ts) (canon T b) → Sub T (.gen c ts) (.gen d ss)

/-- What it means for a value to have a type: types can be replaced by supertypes and by canonical forms; collections have the
class that makes them, and the type of their items; `kinds` are the classes of collections. -/
structure Meaning (T : Table) (kinds : Nat → Bool) (mk : Nat → List V → V) (has : V → Ty → Prop) : Prop where
  sub : ∀ v t s, Sub T t s → has v s → has v t
  canon : ∀ v t, has v t → has v (canon T t)
  bare : ∀ c vs, kinds c = true → has (mk c vs) (.con c)
  items : ∀ c vs t, kinds c = true → (∀ v ∈ vs, has v t) → has (mk c vs) (.gen c [t])

/-- The values of type variables are canonical types without type variables. -/
def CanonSubs (T : Table) (r : Subs) : Prop := ∀ v t, get r v = some t → Ground t ∧ canon T t = t

/-- A handler respects the annotations: for all values of the type variables, if the arguments have the annotated types then the
result has. -/
def Respects (T : Table) (has : V → Ty → Prop) (op : Op) (h : List V → V) : Prop :=
  ∀ (r : Subs) (vs : List V), CanonSubs T r → vs.length = op.params.length →
    (∀ p ∈ op.params.zip vs, has p.2 (canon T (inst r p.1))) → has (h vs) (inst r op.ret)

/-- Neither `Any`, `...` and type variables, nor classes that stand for an alias without its arguments. `generic` are the
classes that have arguments, or inherit from a class that has. -/
inductive Exact (generic : Nat → Bool) : Ty → Prop
  | con {c} : generic c = false → Exact generic (.con c)
  | gen {c ts} : generic c = true → (∀ t ∈ ts, Exact generic t) → Exact generic (.gen c ts)
  | union {ts} : (∀ t ∈ ts, Exact generic t) → Exact generic (.union ts)
  | seq {ts} : (∀ t ∈ ts, Exact generic t) → Exact generic (.seq ts)

/-- Only generic classes have arguments. -/
inductive Formed (generic : Nat → Bool) : Ty → Prop
  | var (n) : Formed generic (.var n)
  | con (c) : Formed generic (.con c)
  | any : Formed generic .any
  | ell : Formed generic .ell
  | gen {c ts} : generic c = true → (∀ t ∈ ts, Formed generic t) → Formed generic (.gen c ts)
  | union {ts} : (∀ t ∈ ts, Formed generic t) → Formed generic (.union ts)
  | seq {ts} : (∀ t ∈ ts, Formed generic t) → Formed generic (.seq ts)

/-- Subclasses of generic classes are generic, so are canonical forms, and `Sequence`; bases of exact types are exact. -/
structure GenericTable (T : Table) (generic : Nat → Bool) : Prop where
  below : ∀ c d, generic c = true → T.sub d c = true → generic d = true
  canon : ∀ c, generic (T.cn c) = generic c
  sequence : generic T.sequence = true
  bases : ∀ d e f ss b, (e, f) ∈ T.bases d → (∀ s ∈ ss, Exact generic s) → f ss = some b → Exact generic b

mutual

/-- Operations are among `ops`. If the result of an operation has type variables, its arguments have exact types; if it has
none, where `typeof` does not look at arguments, they have the annotated types. -/
def Good (T : Table) (n : Nat) (ty : V → Ty) (kinds generic : Nat → Bool) (ops : Op → Prop) : Tm V → Prop
  | .con _ => True
  | .coll c es => kinds c = true ∧ Goods T n ty kinds generic ops es
  | .app op es => ops op ∧ Goods T n ty kinds generic ops es ∧
      (fvs op.ret ≠ [] → (∀ p ∈ op.params, Formed generic p) ∧
        ∀ e ∈ es, ∀ t, typeOf T n ty e = some t → Exact generic t) ∧
      (fvs op.ret = [] → es.length = op.params.length ∧ ∃ r, CanonSubs T r ∧
        ∀ p ∈ op.params.zip es, ∀ t, typeOf T n ty p.2 = some t → Sub T (canon T (inst r p.1)) (canon T t))

def Goods (T : Table) (n : Nat) (ty : V → Ty) (kinds generic : Nat → Bool) (ops : Op → Prop) : List (Tm V) → Prop
  | [] => True
  | e :: es => Good T n ty kinds generic ops e ∧ Goods T n ty kinds generic ops es

end

/-! ## Exact types -/

variable {T : Table} {kinds generic : Nat → Bool} {ops : Op → Prop}

theorem Exact.formed {t : Ty} (h : Exact generic t) : Formed generic t := by
  induction h with
  | con _ => exact .con _
  | gen hc _ ih => exact .gen hc ih
  | union _ ih => exact .union ih
  | seq _ ih => exact .seq ih

theorem fvsL_nil {ts : List Ty} (h : ∀ t ∈ ts, fvs t = []) : fvsL ts = [] := by
  induction ts with
  | nil => rfl
  | cons t ts ih =>
    simp only [fvsL, h t List.mem_cons_self, ih (fun u hu => h u (List.mem_cons_of_mem _ hu)), List.append_nil]

theorem Exact.ground {t : Ty} (h : Exact generic t) : Ground t := by
  induction h with
  | con _ => rfl
  | gen _ _ ih => exact fvsL_nil ih
  | union _ ih => exact fvsL_nil ih
  | seq _ ih => exact fvsL_nil ih

theorem Exact.canon (hG : GenericTable T generic) {t : Ty} (h : Exact generic t) : Exact generic (canon T t) := by
  have hl : ∀ ts : List Ty, (∀ t ∈ ts, Exact generic (Unify.canon T t)) → ∀ u ∈ canons T ts, Exact generic u := by
    intro ts hts u hu
    rw [canons_eq_map] at hu
    obtain ⟨t, ht, rfl⟩ := List.mem_map.1 hu
    exact hts t ht
  induction h with
  | con hc => exact .con (by rw [hG.canon]; exact hc)
  | gen hc _ ih => exact .gen (by rw [hG.canon]; exact hc) (hl _ ih)
  | union _ ih => exact .union (hl _ ih)
  | seq _ ih => exact .seq (hl _ ih)

theorem Formed.canon (hG : GenericTable T generic) {t : Ty} (h : Formed generic t) : Formed generic (canon T t) := by
  have hl : ∀ ts : List Ty, (∀ t ∈ ts, Formed generic (Unify.canon T t)) → ∀ u ∈ canons T ts, Formed generic u := by
    intro ts hts u hu
    rw [canons_eq_map] at hu
    obtain ⟨t, ht, rfl⟩ := List.mem_map.1 hu
    exact hts t ht
  induction h with
  | var n => exact .var n
  | con c => exact .con _
  | any => exact .any
  | ell => exact .ell
  | gen hc _ ih => exact .gen (by rw [hG.canon]; exact hc) (hl _ ih)
  | union _ ih => exact .union (hl _ ih)
  | seq _ ih => exact .seq (hl _ ih)

/-- The values of a substitution are exact and canonical. -/
def ExactSubs (T : Table) (generic : Nat → Bool) (r : Subs) : Prop :=
  ∀ v t, get r v = some t → Exact generic t ∧ canon T t = t

theorem Formed.inst {r : Subs} (hr : ExactSubs T generic r) {t : Ty} (h : Formed generic t) : Formed generic (inst r t) := by
  have hl : ∀ ts : List Ty, (∀ t ∈ ts, Formed generic (Unify.inst r t)) → ∀ u ∈ insts r ts, Formed generic u := by
    intro ts hts u hu
    rw [insts_eq_map] at hu
    obtain ⟨t, ht, rfl⟩ := List.mem_map.1 hu
    exact hts t ht
  induction h with
  | var n =>
    simp only [Unify.inst]
    cases hn : get r n with
    | none => exact .var n
    | some b => exact (hr n b hn).1.formed
  | con c => exact .con _
  | any => exact .any
  | ell => exact .ell
  | gen hc _ ih => exact .gen hc (hl _ ih)
  | union _ ih => exact .union (hl _ ih)
  | seq _ ih => exact .seq (hl _ ih)

/-- For exact types, `Desc` is the subtype relation. -/
theorem desc_sub (hG : GenericTable T generic) {t s : Ty} (h : Desc T t s) :
    Formed generic t → Exact generic s → Sub T t s := by
  induction h with
  | refl t => intro _ _; exact .refl t
  | anyL s => intro _ _; exact .any s
  | anyR t => intro _ hs; cases hs
  | ellL s => intro _ _; exact .ell s
  | ellR t => intro _ hs; cases hs
  | cls h => intro _ _; exact .cls h
  | nil => intro _ _; exact .nil
  | cons _ _ ih1 ih2 =>
    intro ht hs
    cases ht with
    | seq ht =>
      cases hs with
      | seq hs =>
        exact .cons (ih1 (ht _ List.mem_cons_self) (hs _ List.mem_cons_self))
          (ih2 (.seq fun u hu => ht u (List.mem_cons_of_mem _ hu)) (.seq fun u hu => hs u (List.mem_cons_of_mem _ hu)))
  | unionR _ ih =>
    intro ht hs
    cases hs with
    | union hs => exact .unionR fun s h => ih s h ht (hs s h)
  | unionL hm _ ih =>
    intro ht hs
    cases ht with
    | union ht => exact .unionL hm (ih (ht _ hm) hs)
  | args _ ih =>
    intro ht hs
    cases ht with
    | gen _ ht =>
      cases hs with
      | gen _ hs => exact .args (ih (.seq ht) (.seq hs))
  | origin h _ =>
    intro _ _
    exact .origin (desc_con h _ _ rfl rfl)
  | bare h =>
    intro ht hs
    cases ht with
    | gen hc _ =>
      cases hs with
      | con hd => rw [hG.below _ _ hc h] at hd; cases hd
  | tuple hsub _ ih =>
    intro ht hs
    cases hs with
    | gen _ hs =>
      refine .tuple hsub fun s h => ih s h ht ?_
      refine Exact.canon hG (.gen hG.sequence ?_)
      intro u hu
      rw [List.mem_singleton.1 hu]
      exact hs s h
  | keys hsub hd _ ih =>
    intro ht hs
    cases ht with
    | gen _ ht =>
      cases hs with
      | gen _ hs => exact .keys hsub hd (ih (ht _ List.mem_cons_self) (hs _ List.mem_cons_self))
  | base hsub he hf _ ih =>
    intro ht hs
    cases hs with
    | gen _ hs => exact .base hsub he hf (ih ht (Exact.canon hG (hG.bases _ _ _ _ _ he hs hf)))

/-! ## Unification binds exact types -/

def ExactUni (T : Table) (generic : Nat → Bool) (U : Uni) : Prop :=
  ∀ t s q r, Exact generic s → ExactSubs T generic q → U t s q = some (some r) → ExactSubs T generic r

/-- Classes bind nothing. -/
def BareUni (U : Uni) : Prop :=
  ∀ c d q r, (U (.con c) (.con d) q = some (some r) → r = q) ∧ (U .any (.con d) q = some (some r) → r = q)

theorem fold_exact {U : Uni} (hU : ExactUni T generic U) :
    ∀ ps q r, (∀ p ∈ ps, Exact generic p.2) → ExactSubs T generic q → fold U ps q = some (some r) → ExactSubs T generic r := by
  intro ps
  induction ps with
  | nil =>
    intro q r _ hq h
    simp only [fold, Option.some.injEq] at h
    exact h ▸ hq
  | cons p ps ih =>
    intro q r hps hq h
    simp only [fold] at h
    split at h
    · next r' h1 =>
      exact ih r' r (fun p hp => hps p (List.mem_cons_of_mem _ hp)) (hU _ _ q r' (hps _ List.mem_cons_self) hq h1) h
    · next hno => exact absurd h (hno r)

theorem exact_add {v : Nat} {t : Ty} {q : Subs} (hq : ExactSubs T generic q) (ht : Exact generic t)
    (hc : canon T t = t) : ExactSubs T generic (add v t q) := by
  intro w u h
  rw [get_add] at h
  split at h
  · cases hv : get q v with
    | none => rw [hv] at h; cases h; exact ⟨ht, hc⟩
    | some b => rw [hv] at h; cases h; exact hq v _ hv
  · exact hq w u h

theorem unifyCanon_exact (hG : GenericTable T generic) {U : Uni} (hU : ExactUni T generic U) (hB : BareUni U) {t s : Ty}
    {q r : Subs} (hs : Exact generic s) (hcs : canon T s = s) (hq : ExactSubs T generic q) (h : unifyCanon T U t s q = some (some r)) :
    ExactSubs T generic r := by
  have done : some (some q) = (some (some r) : Out) → ExactSubs T generic r := by
    intro h; simp only [Option.some.injEq] at h; exact h ▸ hq
  unfold unifyCanon at h
  split at h
  · exact done h
  · split at h
    · unfold unifyVar at h
      split at h
      · cases hs
      · exact hU _ _ _ _ hs (exact_add hq hs hcs) h
      · cases hs
      · cases h
    · split at h
      · unfold unifySeq at h
        split at h
        · exact done h
        · split at h
          · split at h
            · cases hs with
              | seq hs => exact fold_exact hU _ _ _ (fun p hp => hs _ (List.of_mem_zip hp).2) hq h
            · cases h
          · cases h
      · split at h
        · unfold unifyUnion at h
          split at h
          · cases hs with
            | union hs =>
              refine fold_exact hU _ _ _ ?_ hq h
              intro p hp
              obtain ⟨a, ha, rfl⟩ := List.mem_map.1 hp
              exact hs a ha
          · split at h
            · split at h
              · cases h
              · cases h
              · next u us h1 =>
                split at h
                · simp only [Option.some.injEq] at h
                  subst h
                  obtain ⟨t', ht', h2⟩ := alternatives_mem _ _ h1 u List.mem_cons_self
                  exact hU _ _ _ _ hs hq h2
                · cases h
            · cases h
        · split at h
          · unfold unifyGen at h
            have hkeys : ∀ ts ss, (∀ t ∈ ss, Exact generic t) → (match ts, ss with
                | a :: _, b :: _ => U a b q
                | _, _ => some none) = some (some r) → ExactSubs T generic r := by
              intro ts ss hss h
              split at h
              · exact hU _ _ _ _ (hss _ List.mem_cons_self) hq h
              · cases h
            split at h
            · next c ts d ss =>
              cases hs with
              | gen hd hs =>
                split at h
                · split at h
                  · refine fold_exact hU _ _ _ ?_ hq h
                    intro p hp
                    obtain ⟨a, ha, rfl⟩ := List.mem_map.1 hp
                    refine .gen hG.sequence ?_
                    intro u hu
                    rw [List.mem_singleton.1 hu]
                    exact hs a ha
                  · split at h
                    · exact hkeys _ _ hs h
                    · split at h
                      · exact hkeys _ _ hs h
                      · split at h
                        · exact hU _ _ _ _ (.seq hs) hq h
                        · split at h
                          · next f hf =>
                            split at h
                            · next b hb =>
                              obtain ⟨e, he⟩ := findBase_mem _ hf
                              exact hU _ _ _ _ (hG.bases _ _ _ _ _ he hs hb) hq h
                            · cases h
                          · cases h
                · cases h
            · rw [(hB _ _ _ _).1 h]; exact hq
            · rw [(hB 0 _ _ _).2 h]; exact hq
            · split at h
              · exact done h
              · cases h
            · cases h
          · split at h
            · split at h
              · exact done h
              · cases h
            · split at h
              · exact done h
              · cases h

theorem unify_bare (T : Table) (n : Nat) : BareUni (unify T n) := by
  intro c d q r
  cases n with
  | zero =>
    constructor
    · intro h; cases h
    · intro h; cases h
  | succ n =>
    constructor
    · intro h
      simp only [unify, unifyCanon, canon, isVar, isSeq, isUnion, isGen, Bool.or_self, Bool.false_eq_true, if_false] at h
      split at h
      · simp only [Option.some.injEq] at h; exact h.symm
      · split at h
        · simp only [Option.some.injEq] at h; exact h.symm
        · cases h
    · intro h
      simp only [unify, unifyCanon, canon, isVar, isSeq, isUnion, isGen, isAny, Bool.or_self, Bool.false_eq_true, if_false,
        Bool.true_or, if_true] at h
      split at h
      · simp only [Option.some.injEq] at h; exact h.symm
      · simp only [Option.some.injEq] at h; exact h.symm

theorem unify_exact (hI : IdemTable T) (hG : GenericTable T generic) : ∀ n, ExactUni T generic (unify T n) := by
  intro n
  induction n with
  | zero => intro t s q r _ _ h; cases h
  | succ n ih =>
    intro t s q r hs hq h
    simp only [unify] at h
    exact unifyCanon_exact hG ih (unify_bare T n) (Exact.canon hG hs) (canon_idem hI s) hq h

/-! ## Fuel of `substitute` -/

theorem mapAll_mono {f g : Ty → Option Ty} (hfg : ∀ t u, f t = some u → g t = some u) :
    ∀ ts us, mapAll f ts = some us → mapAll g ts = some us := by
  intro ts
  induction ts with
  | nil => intro us h; exact h
  | cons t ts ih =>
    intro us h
    simp only [mapAll] at h ⊢
    split at h
    · next u us' h1 h2 => rw [hfg _ _ h1, ih _ h2]; exact h
    · cases h

theorem substitute_mono (r : Subs) : ∀ n t u, substitute r n t = some u → substitute r (n + 1) t = some u := by
  intro n
  induction n with
  | zero => intro t u h; cases h
  | succ n ih =>
    intro t u h
    cases t with
    | var v =>
      rw [substitute] at h ⊢
      cases hv : get r v with
      | none => rw [hv] at h; exact h
      | some b => rw [hv] at h; exact ih _ _ h
    | seq ts =>
      rw [substitute] at h ⊢
      cases hm : mapAll (substitute r n) ts with
      | none => rw [hm] at h; cases h
      | some us => rw [hm] at h; rw [mapAll_mono ih ts us hm]; exact h
    | con c => simpa [substitute, fvs] using h
    | any => simpa [substitute, fvs] using h
    | ell => simpa [substitute, fvs] using h
    | gen c ts =>
      rw [substitute] at h ⊢
      · split at h
        · next hb => rw [if_pos hb]; exact ih _ _ h
        · next hb => rw [if_neg hb]; exact h
      all_goals (intros; contradiction)
    | union ts =>
      rw [substitute] at h ⊢
      · split at h
        · next hb => rw [if_pos hb]; exact ih _ _ h
        · next hb => rw [if_neg hb]; exact h
      all_goals (intros; contradiction)

theorem substitute_eq {r : Subs} (hr : GroundSubs r) {n : Nat} {t u : Ty} (h : substitute r n t = some u) : u = inst r t := by
  obtain ⟨N, hN⟩ := substitute_inst hr t
  have : ∀ k, substitute r (n + k) t = some u := by
    intro k
    induction k with
    | zero => exact h
    | succ k ih => exact substitute_mono r _ _ _ ih
  have h1 := this N
  rw [hN (n + N) (by omega)] at h1
  exact (Option.some.inj h1).symm

/-! ## Theorems -/

theorem typesOf_zip {n : Nat} {ty : V → Ty} : ∀ {es : List (Tm V)} {tys : List Ty}, typesOf T n ty es = some tys →
    tys.length = es.length ∧ ∀ (i : Nat) (e : Tm V) (t : Ty), es[i]? = some e → tys[i]? = some t → typeOf T n ty e = some t
  | [], tys, h => by
    simp only [typesOf, Option.some.injEq] at h
    subst h
    exact ⟨rfl, fun i e t h => by simp at h⟩
  | e :: es, tys, h => by
    simp only [typesOf] at h
    split at h
    · next t ts h1 h2 =>
      simp only [Option.some.injEq] at h
      subst h
      obtain ⟨k1, k2⟩ := typesOf_zip h2
      refine ⟨by simp [k1], ?_⟩
      intro i e' t' he ht
      cases i with
      | zero => simp only [List.getElem?_cons_zero, Option.some.injEq] at he ht; subst he ht; exact h1
      | succ i => exact k2 i e' t' (by simpa using he) (by simpa using ht)
    · cases h

theorem evals_eq_map (mk : Nat → List V → V) (h : Op → List V → V) : ∀ es, evals mk h es = es.map (eval mk h)
  | [] => rfl
  | e :: es => by simp [evals, evals_eq_map mk h es]

theorem mem_zip_iff {α β : Type} {as : List α} {bs : List β} {p : α × β} (h : p ∈ as.zip bs) :
    ∃ i : Nat, as[i]? = some p.1 ∧ bs[i]? = some p.2 := by
  obtain ⟨i, hi⟩ := List.mem_iff_getElem?.1 h
  rw [List.getElem?_zip_eq_some] at hi
  exact ⟨i, hi⟩

mutual

/-- **C77.** If handlers respect the annotations of operations, the value of an expression has the type computed for it. -/
theorem C77_type_partial (hT : GroundTable T) (hI : IdemTable T) (hG : GenericTable T generic) {mk : Nat → List V → V}
    {has : V → Ty → Prop} (hM : Meaning T kinds mk has) {n : Nat} {ty : V → Ty} (hty : ∀ v, has v (ty v)) {h : Op → List V → V}
    (hh : ∀ op, ops op → Respects T has op (h op)) : ∀ (e : Tm V), Good T n ty kinds generic ops e → ∀ t, typeOf T n ty e = some t →
      has (eval mk h e) t
  | .con v, _, t, ht => by
    simp only [typeOf, Option.some.injEq] at ht
    exact ht ▸ hty v
  | .coll c es, hg, t, ht => by
    simp only [typeOf] at ht
    split at ht
    · next tys htys =>
      simp only [Option.some.injEq] at ht
      simp only [Good] at hg
      have ih := C77_types_partial hT hI hG hM hty hh es hg.2 tys htys
      subst ht
      simp only [eval]
      obtain ⟨hl, _⟩ := typesOf_zip htys
      cases tys with
      | nil => exact hM.bare c _ hg.1
      | cons t ts =>
        simp only [collTy]
        split
        · next hall =>
          apply hM.items _ _ _ hg.1
          intro v hv
          obtain ⟨i, hi⟩ := List.mem_iff_getElem?.1 hv
          have hlt : i < (t :: ts).length := by
            rw [hl]
            have := (List.getElem?_eq_some_iff.1 hi).1
            rw [evals_eq_map] at this
            simpa using this
          have heq : (t :: ts)[i] = t := by
            cases i with
            | zero => rfl
            | succ i =>
              simp only [List.getElem_cons_succ]
              exact beq_eq _ _ (List.all_eq_true.1 hall _ (List.getElem_mem _))
          have := ih i v ((t :: ts)[i]) hi (List.getElem?_eq_getElem hlt)
          rw [heq] at this
          exact this
        · exact hM.bare c _ hg.1
    · cases ht
  | .app op es, hg, t, ht => by
    simp only [typeOf] at ht
    split at ht
    · next tys htys =>
      simp only [Good] at hg
      obtain ⟨g0, g1, g4, g5⟩ := hg
      have ih := C77_types_partial hT hI hG hM hty hh es g1 tys htys
      obtain ⟨hl, hz⟩ := typesOf_zip htys
      simp only [eval]
      have hexact : fvs op.ret ≠ [] → ∀ u ∈ tys, Exact generic u := by
        intro hne u hu
        obtain ⟨i, hi⟩ := List.mem_iff_getElem?.1 hu
        have hlt := (List.getElem?_eq_some_iff.1 hi).1
        rw [hl] at hlt
        exact (g4 hne).2 es[i] (List.getElem_mem hlt) u (hz i _ _ (List.getElem?_eq_getElem hlt) hi)
      -- arguments have the annotated types
      have hargs : es.length = op.params.length → ∀ r, CanonSubs T r → (∀ p ∈ op.params.zip tys, Sub T (canon T (inst r p.1)) (canon T p.2)) →
          has (h op (evals mk h es)) (inst r op.ret) := by
        intro g2 r hr hsub
        apply hh op g0 r _ hr
        · rw [evals_eq_map]; simpa using g2
        · intro p hp
          obtain ⟨i, h1, h2⟩ := mem_zip_iff hp
          have hlt := (List.getElem?_eq_some_iff.1 h2).1
          rw [evals_eq_map, List.length_map, ← hl] at hlt
          have h3 := List.getElem?_eq_getElem hlt
          exact hM.sub _ _ _ (hsub (p.1, tys[i]) (List.mem_iff_getElem?.2 ⟨i, List.getElem?_zip_eq_some.2 ⟨h1, h3⟩⟩))
            (hM.canon _ _ (ih i _ _ h2 h3))
      unfold typeRule at ht
      split at ht
      · next hret =>
        simp only [Option.some.injEq] at ht
        obtain ⟨g2, r, hr, hsub⟩ := g5 hret
        have := hargs g2 r hr (by
          intro p hp
          obtain ⟨i, h1, h2⟩ := mem_zip_iff hp
          have hlt := (List.getElem?_eq_some_iff.1 h2).1
          rw [hl] at hlt
          have h3 := List.getElem?_eq_getElem hlt
          exact hsub (p.1, es[i]) (List.mem_iff_getElem?.2 ⟨i, List.getElem?_zip_eq_some.2 ⟨h1, h3⟩⟩) _ (hz i _ _ h3 h2))
        rw [inst_ground r _ hret] at this
        rw [← ht]
        exact this
      · next hret =>
        split at ht
        · next hlen =>
          split at ht
          · next r hr =>
            have hge : ∀ p ∈ op.params.zip tys, Exact generic p.2 := fun p hp => hexact hret _ (List.of_mem_zip hp).2
            obtain ⟨k1, _, k3⟩ := fold_sound hT (unify_sound hT hI n) _ _ _ (fun p hp => (hge p hp).ground)
              (fun v t h => by cases h) hr
            have hre := fold_exact (unify_exact hI hG n) _ _ _ hge (fun v t h => by cases h) hr
            have := hargs (by rw [← hl, hlen]) r (fun v t h => ⟨k1 v t h, (hre v t h).2⟩) (by
              intro p hp
              exact desc_sub hG (k3 p hp) (Formed.canon hG (Formed.inst hre ((g4 hret).1 _ (List.of_mem_zip hp).1)))
                (Exact.canon hG (hge p hp)))
            rw [substitute_eq k1 ht]
            exact this
          · cases ht
        · cases ht
    · cases ht

theorem C77_types_partial (hT : GroundTable T) (hI : IdemTable T) (hG : GenericTable T generic) {mk : Nat → List V → V}
    {has : V → Ty → Prop} (hM : Meaning T kinds mk has) {n : Nat} {ty : V → Ty} (hty : ∀ v, has v (ty v)) {h : Op → List V → V}
    (hh : ∀ op, ops op → Respects T has op (h op)) : ∀ (es : List (Tm V)), Goods T n ty kinds generic ops es → ∀ tys,
      typesOf T n ty es = some tys → ∀ (i : Nat) v t, (evals mk h es)[i]? = some v → tys[i]? = some t → has v t
  | [], _, tys, _, i, v, t, hv, _ => by simp [evals] at hv
  | e :: es, hg, tys, htys, i, v, t, hv, ht => by
    simp only [typesOf] at htys
    split at htys
    · next t0 ts h1 h2 =>
      simp only [Option.some.injEq] at htys
      subst htys
      simp only [Goods] at hg
      simp only [evals] at hv
      cases i with
      | zero =>
        simp only [List.getElem?_cons_zero, Option.some.injEq] at hv ht
        subst hv ht
        exact C77_type_partial hT hI hG hM hty hh e hg.1 _ h1
      | succ i =>
        exact C77_types_partial hT hI hG hM hty hh es hg.2 ts h2 i v t (by simpa using hv) (by simpa using ht)
    · cases htys

end

/-- **C77.** The value of an expression is an instance of the class that `typeof` returns. -/
theorem C77_typeof_partial (hT : GroundTable T) (hI : IdemTable T) (hG : GenericTable T generic) {mk : Nat → List V → V}
    {has : V → Ty → Prop} (hM : Meaning T kinds mk has) {n : Nat} {ty : V → Ty} (hty : ∀ v, has v (ty v)) {h : Op → List V → V}
    (hh : ∀ op, ops op → Respects T has op (h op)) {object : Nat} (hobject : ∀ v, has v (.con object)) {e : Tm V}
    (hg : Good T n ty kinds generic ops e) {c : Nat} (hc : typeof T n ty object e = some c) : has (eval mk h e) (.con c) := by
  unfold typeof at hc
  cases ht : typeOf T n ty e with
  | none => rw [ht] at hc; cases hc
  | some t =>
    rw [ht] at hc
    have hv := C77_type_partial hT hI hG hM hty hh e hg t ht
    cases t with
    | con d => cases hc; exact hv
    | gen d ts => cases hc; exact hM.sub _ _ _ (.origin (.inl rfl)) hv
    | var v => cases hc; exact hobject _
    | _ => cases hc

/-! ## Values of the examples -/

/-- Objects of a class, and collections. -/
inductive Ex where
  | obj (c n : Nat)
  | coll (c : Nat) (vs : List Ex)

def Ex.cls : Ex → Nat
  | .obj c _ => c
  | .coll c _ => c

mutual

/-- The values of a type. -/
def has : Ty → Ex → Prop
  | .var _, _ => False
  | .con c, v => exT.sub v.cls c = true
  | .any, _ => True
  | .ell, _ => True
  | .gen c ts, .coll d vs => exT.sub d c = true ∧ d ≠ 6 ∧ d ≠ 7 ∧ hasItems ts vs
  | .gen _ _, .obj _ _ => False
  | .union ts, v => hasSome ts v
  | .seq _, _ => False
termination_by structural t => t

def hasItems : List Ty → List Ex → Prop
  | [t], vs => ∀ v ∈ vs, has t v
  | _, _ => False
termination_by structural ts => ts

def hasSome : List Ty → Ex → Prop
  | [], _ => False
  | t :: ts, v => has t v ∨ hasSome ts v
termination_by structural ts => ts

end

/-- Lists. -/
def exKinds (c : Nat) : Bool := c == 2 || c == 3

def exGeneric (c : Nat) : Bool := c == 2 || c == 3 || c == 4 || c == 5 || c == 6 || c == 7

theorem exT_generic : GenericTable exT exGeneric := by
  refine ⟨?_, ?_, rfl, ?_⟩
  · intro c d hc h
    simp only [exT, exGeneric, Bool.or_eq_true, Bool.and_eq_true, beq_iff_eq] at *
    omega
  · intro c
    simp only [exT, exGeneric]
    split
    · subst_vars; rfl
    · split
      · subst_vars; rfl
      · rfl
  · intro d e f ss b he hs hb
    simp only [exT] at he
    split at he
    · simp only [List.mem_singleton, Prod.mk.injEq] at he
      rw [he.2] at hb
      cases hb
      exact .gen rfl hs
    · cases he

theorem hasSome_iff (v : Ex) : ∀ ts, hasSome ts v ↔ ∃ t ∈ ts, has t v
  | [] => by simp [hasSome]
  | t :: ts => by simp [hasSome, hasSome_iff v ts]

theorem exT_trans {a b c : Nat} (h1 : exT.sub a b = true) (h2 : exT.sub b c = true) : exT.sub a c = true := by
  simp only [exT, Bool.or_eq_true, Bool.and_eq_true, beq_iff_eq] at *
  omega

theorem exT_refl (a : Nat) : exT.sub a a = true := by simp [exT]

theorem exT_cn {a c : Nat} (h : exT.sub a c = true) : exT.sub a (exT.cn c) = true := by
  simp only [exT, Bool.or_eq_true, Bool.and_eq_true, beq_iff_eq] at *
  split
  · omega
  · split <;> omega

mutual

theorem has_canon : ∀ (t : Ty) (v : Ex), has t v → has (canon exT t) v
  | .var _, v, h => by simp [has] at h
  | .con c, v, h => by simp only [canon, has] at h ⊢; exact exT_cn h
  | .any, v, h => by simp [canon, has]
  | .ell, v, h => by simp [canon, has]
  | .gen c ts, .obj _ _, h => by simp [has] at h
  | .gen c ts, .coll d vs, h => by
    simp only [canon, has] at h ⊢
    exact ⟨exT_cn h.1, h.2.1, h.2.2.1, hasItems_canon ts vs h.2.2.2⟩
  | .union ts, v, h => by simp only [canon, has] at h ⊢; exact hasSome_canon ts v h
  | .seq _, v, h => by simp [has] at h

theorem hasItems_canon : ∀ (ts : List Ty) (vs : List Ex), hasItems ts vs → hasItems (canons exT ts) vs
  | [], vs, h => by simp [hasItems] at h
  | [t], vs, h => by
    simp only [canons, hasItems] at h ⊢
    exact fun v hv => has_canon t v (h v hv)
  | _ :: _ :: _, vs, h => by simp [hasItems] at h

theorem hasSome_canon : ∀ (ts : List Ty) (v : Ex), hasSome ts v → hasSome (canons exT ts) v
  | [], v, h => by simp [hasSome] at h
  | t :: ts, v, h => by
    simp only [canons, hasSome] at h ⊢
    exact h.imp (has_canon t v) (hasSome_canon ts v)

end

theorem has_sub {t s : Ty} (h : Sub exT t s) : (∀ v, has s v → has t v) ∧
    ∀ ts ss, t = .seq ts → s = .seq ss → ∀ vs, hasItems ss vs → hasItems ts vs := by
  induction h with
  | refl t => exact ⟨fun _ h => h, fun ts ss h1 h2 => by subst h1; cases h2; exact fun _ h => h⟩
  | any s => exact ⟨fun _ _ => by simp [has], fun ts ss h1 => by cases h1⟩
  | ell s => exact ⟨fun _ _ => by simp [has], fun ts ss h1 => by cases h1⟩
  | cls h =>
    refine ⟨fun v hv => ?_, fun ts ss h1 => by cases h1⟩
    simp only [has] at hv ⊢
    exact exT_trans hv h
  | nil =>
    refine ⟨fun v hv => by simp [has] at hv, ?_⟩
    intro ts ss h1 h2 vs hv
    cases h2
    simp [hasItems] at hv
  | cons h1 h2 ih1 ih2 =>
    refine ⟨fun v hv => by simp [has] at hv, ?_⟩
    intro ts ss e1 e2 vs hv
    cases e1
    cases e2
    rename_i t s ts ss
    cases ss with
    | cons _ _ => simp [hasItems] at hv
    | nil =>
      have : ts = [] := by
        cases h2 <;> rfl
      subst this
      simp only [hasItems] at hv ⊢
      exact fun v hm => ih1.1 v (hv v hm)
  | unionR h ih =>
    refine ⟨fun v hv => ?_, fun ts ss h1 h2 => by cases h2⟩
    simp only [has, hasSome_iff] at hv
    obtain ⟨s, hs, hv⟩ := hv
    exact (ih s hs).1 v hv
  | unionL hm h ih =>
    refine ⟨fun v hv => ?_, fun ts ss h1 h2 => by cases h1⟩
    simp only [has, hasSome_iff]
    exact ⟨_, hm, ih.1 v hv⟩
  | args h ih =>
    refine ⟨fun v hv => ?_, fun ts ss h1 h2 => by cases h1⟩
    cases v with
    | obj _ _ => simp [has] at hv
    | coll d vs =>
      simp only [has] at hv ⊢
      exact ⟨hv.1, hv.2.1, hv.2.2.1, ih.2 _ _ rfl rfl vs hv.2.2.2⟩
  | origin h =>
    refine ⟨fun v hv => ?_, fun ts ss h1 h2 => by cases h1⟩
    cases v with
    | obj _ _ => simp [has] at hv
    | coll d vs =>
      simp only [has] at hv ⊢
      rcases h with rfl | h
      · exact hv.1
      · exact exT_trans hv.1 h
  | tuple hsub h ih =>
    refine ⟨fun v hv => ?_, fun ts ss h1 h2 => by cases h1⟩
    rename_i c ts ss
    cases v with
    | obj _ _ => simp [has] at hv
    | coll d vs =>
      simp only [has] at hv
      obtain ⟨h1, h2, h3, h4⟩ := hv
      match ss, h4 with
      | [], h4 => simp [hasItems] at h4
      | _ :: _ :: _, h4 => simp [hasItems] at h4
      | [t], h4 =>
        apply (ih t (by simp)).1
        apply has_canon
        simp only [has]
        exact ⟨exT_trans h1 rfl, h2, h3, h4⟩
  | keys hsub hd h ih =>
    refine ⟨fun v hv => ?_, fun ts ss h1 h2 => by cases h1⟩
    cases v with
    | obj _ _ => simp [has] at hv
    | coll e vs =>
      simp only [has] at hv
      obtain ⟨h1, h2, h3, _⟩ := hv
      exfalso
      rcases hd with rfl | rfl <;>
      · simp only [exT, Bool.or_eq_true, Bool.and_eq_true, beq_iff_eq] at h1
        omega
  | base hsub he hf h ih =>
    refine ⟨fun v hv => ?_, fun ts ss h1 h2 => by cases h1⟩
    apply ih.1
    apply has_canon
    rename_i c d e f b ts ss
    simp only [exT] at he
    split at he
    · next hd =>
      simp only [List.mem_singleton, Prod.mk.injEq] at he
      rw [he.2] at hf
      cases hf
      subst hd
      cases v with
      | obj _ _ => simp [has] at hv
      | coll d vs =>
        simp only [has] at hv ⊢
        exact ⟨exT_trans hv.1 rfl, hv.2⟩
    · cases he

/-- The assumption about types holds for these values. -/
theorem ex_meaning : Meaning exT exKinds Ex.coll (fun v t => has t v) := by
  refine ⟨fun v t s h => (has_sub h).1 v, fun v t => has_canon t v, ?_, ?_⟩
  · intro c vs _
    simp only [has]
    exact exT_refl c
  · intro c vs t hc h
    simp only [has, hasItems]
    refine ⟨exT_refl c, ?_, ?_, h⟩ <;>
    · simp only [exKinds, Bool.or_eq_true, beq_iff_eq] at hc
      omega

/-- `nested_type` of these values. -/
def exTy : Ex → Ty
  | .obj c _ => .con c
  | .coll c _ => .con c

/-- `if_then_else(x: int, a: T, b: T) -> T`, `first(xs: Sequence[T], d: T) -> T`, `ident(x: T) -> T`, `double(x: int) -> int`. -/
def ifThenElse : Op := ⟨0, [.con 0, .var 0, .var 0], .var 0⟩
def first : Op := ⟨1, [tseq (.var 0), .var 0], .var 0⟩
def ident : Op := ⟨2, [.var 0], .var 0⟩
def double : Op := ⟨3, [.con 0], .con 0⟩

/-- Handlers of these operations. -/
def exH (op : Op) (vs : List Ex) : Ex :=
  match op.name, vs with
  | 0, [.obj _ 0, _, b] => b
  | 0, [_, a, _] => a
  | 1, [.coll _ (v :: _), _] => v
  | 1, [_, d] => d
  | 2, [v] => v
  | 3, [.obj _ n] => .obj 0 (n + n)
  | _, v :: _ => v
  | _, [] => .obj 0 0

def num (n : Nat) : Tm Ex := .con (.obj 0 n)
def truth (n : Nat) : Tm Ex := .con (.obj 1 n)

/-- `first([if_then_else(1, 2, True), ident(3)], double(4))`. -/
def exTm : Tm Ex := .app first [.coll 3 [.app ifThenElse [num 1, num 2, truth 1], .app ident [num 3]], .app double [num 4]]

example : typeof exT 20 exTy 99 exTm = some 0 := by decide

theorem first_respects : Respects exT (fun v t => has t v) first (exH first) := by
  intro r vs hr hl hvs
  match vs, hl with
  | [xs, d], _ =>
    have h1 := hvs (tseq (.var 0), xs) (by simp [first])
    have h2 := hvs (.var 0, d) (by simp [first])
    simp only [tseq, inst, insts, canon, canons] at h1 h2
    simp only [first, inst]
    cases hv : get r 0 with
    | none => rw [hv] at h2; simp [canon, has] at h2
    | some t =>
      rw [hv] at h1 h2
      simp only [Option.getD_some] at h1 h2 ⊢
      rw [(hr 0 t hv).2] at h1 h2
      cases xs with
      | obj _ _ => simp [has] at h1
      | coll c vs =>
        simp only [has, hasItems] at h1
        cases vs with
        | nil => exact h2
        | cons v vs => exact h1.2.2.2 v List.mem_cons_self

theorem ident_respects : Respects exT (fun v t => has t v) ident (exH ident) := by
  intro r vs hr hl hvs
  match vs, hl with
  | [x], _ =>
    have h1 := hvs (.var 0, x) (by simp [ident])
    simp only [inst] at h1
    simp only [ident, inst]
    cases hv : get r 0 with
    | none => rw [hv] at h1; simp [canon, has] at h1
    | some t =>
      rw [hv] at h1
      simp only [Option.getD_some] at h1 ⊢
      rw [(hr 0 t hv).2] at h1
      exact h1

theorem double_respects : Respects exT (fun v t => has t v) double (exH double) := by
  intro r vs hr hl hvs
  match vs, hl with
  | [x], _ =>
    have h1 := hvs (.con 0, x) (by simp [double])
    simp only [inst, canon] at h1
    cases x with
    | obj c n => simp [double, exH, inst, has, Ex.cls, exT]
    | coll c vs => exact h1

theorem ifThenElse_respects : Respects exT (fun v t => has t v) ifThenElse (exH ifThenElse) := by
  intro r vs hr hl hvs
  match vs, hl with
  | [x, a, b], _ =>
    have h1 := hvs (.var 0, a) (by simp [ifThenElse])
    have h2 := hvs (.var 0, b) (by simp [ifThenElse])
    simp only [inst] at h1 h2
    simp only [ifThenElse, inst]
    cases hv : get r 0 with
    | none => rw [hv] at h1; simp [canon, has] at h1
    | some t =>
      rw [hv] at h1 h2
      simp only [Option.getD_some] at h1 h2 ⊢
      rw [(hr 0 t hv).2] at h1 h2
      cases x with
      | coll c vs => exact h1
      | obj c n =>
        cases n with
        | zero => exact h2
        | succ n => exact h1

theorem exTy_has (v : Ex) : has (exTy v) v := by
  cases v <;> exact exT_refl _

/-- The operations of the examples. -/
def exOps (op : Op) : Prop := op = first ∨ op = ifThenElse ∨ op = ident ∨ op = double

theorem exTm_good : Good exT 20 exTy exKinds exGeneric exOps exTm := by
  have int : Exact exGeneric (.con 0) := .con rfl
  have bool : Exact exGeneric (.con 1) := .con rfl
  have h1 : typeOf exT 20 exTy (.app ifThenElse [num 1, num 2, truth 1]) = some (.con 0) := rfl
  have h2 : typeOf exT 20 exTy (.app ident [num 3]) = some (.con 0) := rfl
  have h3 : typeOf exT 20 exTy (.app double [num 4]) = some (.con 0) := rfl
  have h4 : typeOf exT 20 exTy (.coll 3 [.app ifThenElse [num 1, num 2, truth 1], .app ident [num 3]]) =
    some (.gen 3 [.con 0]) := rfl
  have hn : ∀ n, typeOf exT 20 exTy (num n) = some (.con 0) := fun _ => rfl
  have ht : ∀ n, typeOf exT 20 exTy (truth n) = some (.con 1) := fun _ => rfl
  simp only [exTm, Good, Goods]
  refine ⟨.inl rfl, ⟨⟨rfl, ⟨?_, ?_, trivial⟩⟩, ?_, trivial⟩, fun _ => ⟨?_, ?_⟩, fun h => by cases h⟩
  · refine ⟨.inr (.inl rfl), by simp [num, truth, Good], fun _ => ⟨?_, ?_⟩, fun h => by cases h⟩
    · simp only [ifThenElse, List.mem_cons, List.not_mem_nil, or_false]
      rintro p (rfl | rfl | rfl)
      · exact .con 0
      · exact .var 0
      · exact .var 0
    · simp only [List.mem_cons, List.not_mem_nil, or_false]
      rintro e (rfl | rfl | rfl) t h
      · rw [hn] at h; cases h; exact int
      · rw [hn] at h; cases h; exact int
      · rw [ht] at h; cases h; exact bool
  · refine ⟨.inr (.inr (.inl rfl)), by simp [num, Good], fun _ => ⟨?_, ?_⟩, fun h => by cases h⟩
    · simp only [ident, List.mem_singleton]
      rintro p rfl
      exact .var 0
    · simp only [List.mem_singleton]
      rintro e rfl t h
      rw [hn] at h; cases h; exact int
  · refine ⟨.inr (.inr (.inr rfl)), by simp [num, Good], fun h => absurd rfl h, fun _ => ⟨rfl, [], ?_, ?_⟩⟩
    · intro v t h; cases h
    · intro p hp t h
      simp only [double, List.zip_cons_cons, List.zip_nil_left, List.mem_singleton] at hp
      subst hp
      rw [hn] at h
      cases h
      exact .refl _
  · simp only [first, List.mem_cons, List.not_mem_nil, or_false]
    rintro p (rfl | rfl)
    · refine .gen rfl ?_
      intro t h
      rw [List.mem_singleton.1 h]
      exact .var 0
    · exact .var 0
  · simp only [List.mem_cons, List.not_mem_nil, or_false]
    rintro e (rfl | rfl) t h
    · rw [h4] at h
      cases h
      refine .gen rfl ?_
      intro t h
      rw [List.mem_singleton.1 h]
      exact int
    · rw [h3] at h; cases h; exact int

/-- The theorem applies. -/
example : has (.con 0) (eval Ex.coll exH exTm) := by
  refine C77_type_partial exT_ground exT_idem exT_generic ex_meaning exTy_has ?_ exTm exTm_good (.con 0) rfl
  rintro op (rfl | rfl | rfl | rfl)
  · exact first_respects
  · exact ifThenElse_respects
  · exact ident_respects
  · exact double_respects

/-! ## Negations -/

/-- **C77, negation.** A list whose items have different types has a type without argument, which agrees with all aliases:
the type of `first([object, 1], 2)` is `int`, its value is the object. -/
theorem C77_mixed_fails : Respects exT (fun v t => has t v) first (exH first) ∧
    typeof exT 20 exTy 99 (.app first [.coll 3 [.con (.obj 8 0), num 1], num 2]) = some 0 ∧
    ¬ has (.con 0) (eval Ex.coll exH (.app first [.coll 3 [.con (.obj 8 0), num 1], num 2])) := by
  refine ⟨first_respects, by decide, by simp [eval, evals, exH, first, num, has, Ex.cls, exT]⟩

/-- **C77, negation.** Arguments are not compared with their annotations if the result has no type variable: the type of
`double([])` is `int`, its value is the list. -/
theorem C77_unchecked_fails : Respects exT (fun v t => has t v) double (exH double) ∧
    typeof exT 20 exTy 99 (.app double [.con (.coll 3 [])]) = some 0 ∧
    ¬ has (.con 0) (eval Ex.coll exH (.app double [.con (.coll 3 [])])) :=
  ⟨double_respects, by decide, by simp [eval, evals, exH, double, has, Ex.cls, exT]⟩

/-- **C77, negation.** The type of `ident(A())` is the base `B` of the class `A`. -/
theorem C77_subclass_fails : typeof exT 20 exTy 99 (.app ident [.con (.obj 9 0)]) = some 8 := by decide

/-- Objects, and functions that take objects of one class, `10` being `Callable`, and give objects of another. -/
inductive Fn where
  | obj (c : Nat)
  | fn (dom cod : Nat)

def fnTy : Fn → Ty
  | .obj c => .con c
  | .fn d e => .gen 10 [.seq [.con d], .con e]

/-- The values of classes and of types of functions: a function may take more objects than its type says. -/
def fnHas : Ty → Fn → Prop
  | .con c, .obj d => exT.sub d c = true
  | .gen 10 [.seq [.con a], .con b], .fn d e => exT.sub a d = true ∧ exT.sub e b = true
  | _, _ => False

/-- `call(x: T, f: Callable[[T], S]) -> S`. -/
def call : Op := ⟨4, [.var 0, .gen 10 [.seq [.var 0], .var 1]], .var 1⟩

/-- A function applied to an object it does not take gives an error, the object of class `98`. -/
def callH : List Fn → Fn
  | [.obj c, .fn d e] => if exT.sub c d then .obj e else .obj 98
  | _ => .obj 98

/-- **C77, negation.** Types of parameters are compared in the same direction as those of results: `call(1, f)` has a type, the
result of `f`, although `f` takes `bool` only and the call fails. -/
theorem C77_callable_fails : Respects exT (fun v t => fnHas t v) call callH ∧
    typeof exT 20 fnTy 99 (.app call [.con (.obj 0), .con (.fn 1 8)]) = some 8 ∧
    ¬ fnHas (.con 8) (eval (fun _ _ => .obj 0) (fun _ => callH) (.app call [.con (.obj 0), .con (.fn 1 8)])) := by
  refine ⟨?_, by decide, by simp [eval, evals, callH, fnHas, exT]⟩
  intro r vs hr hl hvs
  match vs, hl with
  | [x, f], _ =>
    have h1 := hvs (.var 0, x) (by simp [call])
    have h2 := hvs (.gen 10 [.seq [.var 0], .var 1], f) (by simp [call])
    have hcn : exT.cn 10 = 10 := rfl
    simp only [inst, insts, canon, canons, hcn] at h1 h2
    simp only [call, inst]
    cases ha : get r 0 with
    | none => rw [ha] at h1; simp [canon, fnHas] at h1
    | some a =>
      cases hb : get r 1 with
      | none => rw [ha, hb] at h2; simp [canon, fnHas] at h2
      | some b =>
        rw [ha] at h1 h2
        rw [hb] at h2
        simp only [Option.getD_some] at h1 h2 ⊢
        rw [(hr 0 a ha).2] at h1 h2
        rw [(hr 1 b hb).2] at h2
        cases f with
        | obj c => simp [fnHas] at h2
        | fn d e =>
          cases a with
          | con a =>
            cases b with
            | con b =>
              simp only [fnHas] at h2
              cases x with
              | obj c =>
                simp only [fnHas] at h1
                simp only [callH, if_pos (exT_trans h1 h2.1), fnHas]
                exact h2.2
              | fn _ _ => simp [fnHas] at h1
            | _ => simp [fnHas] at h2
          | _ => simp [fnHas] at h2

end Verif.Unify.Typeof
