/-!
# C68: canonical forms of types

Model of `canonicalize` (`internals/unification.py` 656-855).

* A class of the user is given with its original bases. What becomes of the other classes is given by a table: a class
  (`list` becomes `MutableSequence`) or an alias of one (`range` becomes `Sequence[int]`).
* Typed dicts, terms, operations, interpretations, special forms, forward references and type variables with bounds or
  constraints are left out. Literals are given by the types of their values.
* `None` as a result stands for `TypeError`.
* `a | b` flattens unions and drops members that are equal to an earlier one; the order of members is kept here.
* Subscripting an alias replaces its type variables in the order of their first occurrence.
-/

namespace Verif.Canon

/-- Type expressions. `user n bs` is the class `n` with the original bases `bs`; `generic ps` is the base `Generic[ps]`;
`vtuple t` is `tuple[t, ...]`. -/
inductive Ty where
  | con (c : Nat)
  | user (n : Nat) (bases : List Ty)
  | generic (ps : List Nat)
  | protocol (n : Nat)
  | var (n : Nat)
  | any
  | ell
  | none
  | gen (o : Ty) (ts : List Ty)
  | vtuple (t : Ty)
  | union (ts : List Ty)
  | ann (t : Ty) (m : Nat)
  | lit (ts : List Ty)
  | newtype (n : Nat) (t : Ty)
  | alias (t : Ty)
  | concat (ts : List Ty)
  | seq (ts : List Ty)

mutual

/-- `==`. -/
def Ty.beq : Ty → Ty → Bool
  | .con a, .con b => a == b
  | .user a bs, .user b cs => a == b && Ty.beqs bs cs
  | .generic a, .generic b => decide (a = b)
  | .protocol a, .protocol b => a == b
  | .var a, .var b => a == b
  | .any, .any => true
  | .ell, .ell => true
  | .none, .none => true
  | .gen o ts, .gen p us => Ty.beq o p && Ty.beqs ts us
  | .vtuple t, .vtuple u => Ty.beq t u
  | .union ts, .union us => Ty.beqs ts us
  | .ann t m, .ann u n => Ty.beq t u && m == n
  | .lit ts, .lit us => Ty.beqs ts us
  | .newtype a t, .newtype b u => a == b && Ty.beq t u
  | .alias t, .alias u => Ty.beq t u
  | .concat ts, .concat us => Ty.beqs ts us
  | .seq ts, .seq us => Ty.beqs ts us
  | _, _ => false
termination_by structural t => t

def Ty.beqs : List Ty → List Ty → Bool
  | [], [] => true
  | t :: ts, u :: us => Ty.beq t u && Ty.beqs ts us
  | _, _ => false
termination_by structural ts => ts

end

def elem (t : Ty) : List Ty → Bool
  | [] => false
  | u :: us => Ty.beq t u || elem t us

def members : Ty → List Ty
  | .union ts => ts
  | t => [t]

def addAll (l : List Ty) : List Ty → List Ty
  | [] => l
  | t :: ts => addAll (if elem t l then l else l ++ [t]) ts

def ofMembers : List Ty → Ty
  | [t] => t
  | ts => .union ts

/-- The union of types (at least one). -/
def orAll (ts : List Ty) : Ty := ofMembers (addAll [] (ts.flatMap members))

mutual

/-- The type variables, in order, with repetitions. -/
def Ty.vars : Ty → List Nat
  | .var n => [n]
  | .gen _ ts => varss ts
  | .union ts => varss ts
  | .seq ts => varss ts
  | _ => []
termination_by structural t => t

def varss : List Ty → List Nat
  | [] => []
  | t :: ts => t.vars ++ varss ts
termination_by structural ts => ts

end

/-- The first occurrences. -/
def firsts : List Nat → List Nat → List Nat
  | _, [] => []
  | seen, n :: ns => if seen.contains n then firsts seen ns else n :: firsts (n :: seen) ns

mutual

/-- Replacing type variables. -/
def Ty.subst (s : List (Nat × Ty)) : Ty → Ty
  | .var n => (s.lookup n).getD (.var n)
  | .gen o ts => .gen o (substs s ts)
  | .union ts => orAll (substs s ts)
  | .seq ts => .seq (substs s ts)
  | t => t
termination_by structural t => t

def substs (s : List (Nat × Ty)) : List Ty → List Ty
  | [] => []
  | t :: ts => t.subst s :: substs s ts
termination_by structural ts => ts

end

/-- `o[*args]`. -/
def subscript (o : Ty) (args : List Ty) : Option Ty :=
  match o with
  | .con c => some (.gen (.con c) args)
  | .user n bs => some (.gen (.user n bs) args)
  | .gen p ts =>
    let ps := firsts [] (varss ts)
    if ps = [] then Option.none
    else if ps.length = args.length then some (.gen p (substs (ps.zip args) ts))
    else Option.none
  | _ => Option.none

/-- The classes that are not of the user. -/
structure Table where
  cn : Nat → Ty
  object : Nat
  sequence : Nat

mutual

/-- `canonicalize(typ)`. -/
def canon (T : Table) : Ty → Option Ty
  | .con c => some (T.cn c)
  | .user n bs =>
    match canonBases T bs with
    | Option.none => Option.none
    | some Option.none => some (.user n bs)
    | some (some b) => some b
  | .generic _ => Option.none
  | .protocol _ => some .any
  | .var n => some (.var n)
  | .any => some .any
  | .ell => some .ell
  | .none => some .none
  | .gen o ts =>
    match canon T o, canons T ts with
    | some o, some ts => subscript o ts
    | _, _ => Option.none
  | .vtuple t =>
    match canon T t with
    | some t => some (.gen (.con T.sequence) [t])
    | Option.none => Option.none
  | .union [] => Option.none
  | .union (t :: ts) =>
    match canon T t, canons T ts with
    | some t, some ts => some (orAll (t :: ts))
    | _, _ => Option.none
  | .ann t _ => canon T t
  | .lit [] => Option.none
  | .lit (t :: ts) =>
    match canon T t, canons T ts with
    | some t, some ts => some (orAll (t :: ts))
    | _, _ => Option.none
  | .newtype _ t => canon T t
  | .alias t => canon T t
  | .concat _ => some .ell
  | .seq ts =>
    match canons T ts with
    | some ts => some (.seq ts)
    | Option.none => Option.none
termination_by structural t => t

def canons (T : Table) : List Ty → Option (List Ty)
  | [] => some []
  | t :: ts =>
    match canon T t, canons T ts with
    | some t, some ts => some (t :: ts)
    | _, _ => Option.none
termination_by structural ts => ts

/-- The loop over the bases (708-713). -/
def canonBases (T : Table) : List Ty → Option (Option Ty)
  | [] => some Option.none
  | b :: bs =>
    match b with
    | .generic _ => canonBases T bs
    | b =>
      match canon T b with
      | Option.none => Option.none
      | some c => if Ty.beq c (.con T.object) then canonBases T bs else some (some c)
termination_by structural bs => bs

end

/-! ## What is stated -/

/-- The table: the canonical form of a class is a class that is canonical, or an alias of one with such an argument. -/
structure Table.Ok (T : Table) : Prop where
  cn : ∀ c, (∃ d, T.cn c = .con d ∧ T.cn d = .con d) ∨
    ∃ d e, T.cn c = .gen (.con d) [.con e] ∧ T.cn d = .con d ∧ T.cn e = .con e
  sequence : T.cn T.sequence = .con T.sequence

/-! ## Proofs -/

mutual

theorem eq_of_beq : ∀ (t u : Ty), Ty.beq t u = true → t = u
  | .con a, u, h => by cases u <;> simp [Ty.beq] at h; rw [h]
  | .user a bs, u, h => by
    cases u <;> simp [Ty.beq] at h
    rw [h.1, eq_of_beqs bs _ h.2]
  | .generic a, u, h => by cases u <;> simp [Ty.beq] at h; rw [h]
  | .protocol a, u, h => by cases u <;> simp [Ty.beq] at h; rw [h]
  | .var a, u, h => by cases u <;> simp [Ty.beq] at h; rw [h]
  | .any, u, h => by cases u <;> simp [Ty.beq] at h; rfl
  | .ell, u, h => by cases u <;> simp [Ty.beq] at h; rfl
  | .none, u, h => by cases u <;> simp [Ty.beq] at h; rfl
  | .gen o ts, u, h => by
    cases u <;> simp [Ty.beq] at h
    rw [eq_of_beq o _ h.1, eq_of_beqs ts _ h.2]
  | .vtuple t, u, h => by
    cases u <;> simp [Ty.beq] at h
    rw [eq_of_beq t _ h]
  | .union ts, u, h => by
    cases u <;> simp [Ty.beq] at h
    rw [eq_of_beqs ts _ h]
  | .ann t m, u, h => by
    cases u <;> simp [Ty.beq] at h
    rw [eq_of_beq t _ h.1, h.2]
  | .lit ts, u, h => by
    cases u <;> simp [Ty.beq] at h
    rw [eq_of_beqs ts _ h]
  | .newtype a t, u, h => by
    cases u <;> simp [Ty.beq] at h
    rw [h.1, eq_of_beq t _ h.2]
  | .alias t, u, h => by
    cases u <;> simp [Ty.beq] at h
    rw [eq_of_beq t _ h]
  | .concat ts, u, h => by
    cases u <;> simp [Ty.beq] at h
    rw [eq_of_beqs ts _ h]
  | .seq ts, u, h => by
    cases u <;> simp [Ty.beq] at h
    rw [eq_of_beqs ts _ h]

theorem eq_of_beqs : ∀ (ts us : List Ty), Ty.beqs ts us = true → ts = us
  | [], us, h => by cases us <;> simp [Ty.beqs] at h; rfl
  | t :: ts, us, h => by
    cases us with
    | nil => simp [Ty.beqs] at h
    | cons u us =>
      simp [Ty.beqs] at h
      rw [eq_of_beq t u h.1, eq_of_beqs ts us h.2]

end

mutual

theorem beq_self : ∀ (t : Ty), Ty.beq t t = true
  | .con _ => by simp [Ty.beq]
  | .user _ bs => by simp [Ty.beq, beqs_self bs]
  | .generic _ => by simp [Ty.beq]
  | .protocol _ => by simp [Ty.beq]
  | .var _ => by simp [Ty.beq]
  | .any => rfl
  | .ell => rfl
  | .none => rfl
  | .gen o ts => by simp [Ty.beq, beq_self o, beqs_self ts]
  | .vtuple t => by simp [Ty.beq, beq_self t]
  | .union ts => by simp [Ty.beq, beqs_self ts]
  | .ann t _ => by simp [Ty.beq, beq_self t]
  | .lit ts => by simp [Ty.beq, beqs_self ts]
  | .newtype _ t => by simp [Ty.beq, beq_self t]
  | .alias t => by simp [Ty.beq, beq_self t]
  | .concat ts => by simp [Ty.beq, beqs_self ts]
  | .seq ts => by simp [Ty.beq, beqs_self ts]

theorem beqs_self : ∀ (ts : List Ty), Ty.beqs ts ts = true
  | [] => rfl
  | t :: ts => by simp [Ty.beqs, beq_self t, beqs_self ts]

end

theorem elem_iff {t : Ty} {l : List Ty} : elem t l = true ↔ t ∈ l := by
  induction l with
  | nil => simp [elem]
  | cons u us ih =>
    simp only [elem, Bool.or_eq_true, ih, List.mem_cons]
    constructor
    · rintro (h | h)
      · exact .inl (eq_of_beq t u h)
      · exact .inr h
    · rintro (h | h)
      · exact .inl (h ▸ beq_self t)
      · exact .inr h

theorem addAll_nodup (l ts : List Ty) (h : (l ++ ts).Nodup) : addAll l ts = l ++ ts := by
  induction ts generalizing l with
  | nil => simp [addAll]
  | cons t ts ih =>
    have ht : elem t l = false := by
      refine Bool.eq_false_iff.2 fun he => ?_
      have := elem_iff.1 he
      rw [List.nodup_append] at h
      exact h.2.2 t this t (by simp) rfl
    rw [addAll, ht]
    simp only [Bool.false_eq_true, if_false]
    rw [ih (l ++ [t]) (by simpa using h)]
    simp

theorem nodup_addAll (l ts : List Ty) (h : l.Nodup) : (addAll l ts).Nodup := by
  induction ts generalizing l with
  | nil => exact h
  | cons t ts ih =>
    rw [addAll]
    split
    · exact ih l h
    · rename_i he
      refine ih _ (List.nodup_append.2 ⟨h, by simp, ?_⟩)
      intro a ha b hb e
      simp at hb
      subst hb
      exact he (elem_iff.2 (e ▸ ha))

theorem mem_addAll {x : Ty} {l ts : List Ty} (h : x ∈ addAll l ts) : x ∈ l ∨ x ∈ ts := by
  induction ts generalizing l with
  | nil => exact .inl h
  | cons t ts ih =>
    rw [addAll] at h
    rcases ih h with h | h
    · split at h
      · exact .inl h
      · rcases List.mem_append.1 h with h | h
        · exact .inl h
        · simp at h; simp [h]
    · simp [h]

theorem addAll_ne_nil {l ts : List Ty} (h : l ≠ [] ∨ ts ≠ []) : addAll l ts ≠ [] := by
  induction ts generalizing l with
  | nil => simpa [addAll] using h
  | cons t ts ih =>
    rw [addAll]
    refine ih (.inl ?_)
    split
    · rename_i he; intro e; rw [e] at he; simp [elem] at he
    · simp

mutual

/-- Types in canonical form. -/
inductive Can (T : Table) : Ty → Prop
  | con {c} : T.cn c = .con c → Can T (.con c)
  | user {n bs} : canonBases T bs = some Option.none → Can T (.user n bs)
  | var {n} : Can T (.var n)
  | any : Can T .any
  | ell : Can T .ell
  | none : Can T .none
  | gen {c ts} : T.cn c = .con c → Cans T ts → Can T (.gen (.con c) ts)
  | guser {n bs ts} : canonBases T bs = some Option.none → Cans T ts → Can T (.gen (.user n bs) ts)
  | union {t u ts} : Cans T (t :: u :: ts) → (t :: u :: ts).Nodup →
      (∀ x ∈ t :: u :: ts, ∀ l, x ≠ .union l) → Can T (.union (t :: u :: ts))
  | seq {ts} : Cans T ts → Can T (.seq ts)

inductive Cans (T : Table) : List Ty → Prop
  | nil : Cans T []
  | cons {t ts} : Can T t → Cans T ts → Cans T (t :: ts)

end

theorem cans_iff {T : Table} {ts : List Ty} : Cans T ts ↔ ∀ t ∈ ts, Can T t := by
  induction ts with
  | nil => exact ⟨fun _ => by simp, fun _ => .nil⟩
  | cons t ts ih =>
    constructor
    · intro h
      cases h with
      | cons h hs => simpa using ⟨h, ih.1 hs⟩
    · intro h
      exact .cons (h t (by simp)) (ih.2 fun x hx => h x (by simp [hx]))

theorem members_not_union {T : Table} {t : Ty} (h : Can T t) :
    members t ≠ [] ∧ ∀ x ∈ members t, Can T x ∧ ∀ l, x ≠ .union l := by
  cases h with
  | union hs _ hu => exact ⟨by simp [members], fun x hx => ⟨cans_iff.1 hs x hx, hu x hx⟩⟩
  | con h => refine ⟨by simp [members], ?_⟩; intro x hx; simp [members] at hx; subst hx; exact ⟨.con h, by simp⟩
  | user h => refine ⟨by simp [members], ?_⟩; intro x hx; simp [members] at hx; subst hx; exact ⟨.user h, by simp⟩
  | var => refine ⟨by simp [members], ?_⟩; intro x hx; simp [members] at hx; subst hx; exact ⟨.var, by simp⟩
  | any => refine ⟨by simp [members], ?_⟩; intro x hx; simp [members] at hx; subst hx; exact ⟨.any, by simp⟩
  | ell => refine ⟨by simp [members], ?_⟩; intro x hx; simp [members] at hx; subst hx; exact ⟨.ell, by simp⟩
  | none => refine ⟨by simp [members], ?_⟩; intro x hx; simp [members] at hx; subst hx; exact ⟨.none, by simp⟩
  | gen h hs => refine ⟨by simp [members], ?_⟩; intro x hx; simp [members] at hx; subst hx; exact ⟨.gen h hs, by simp⟩
  | guser h hs => refine ⟨by simp [members], ?_⟩; intro x hx; simp [members] at hx; subst hx; exact ⟨.guser h hs, by simp⟩
  | seq hs => refine ⟨by simp [members], ?_⟩; intro x hx; simp [members] at hx; subst hx; exact ⟨.seq hs, by simp⟩

theorem can_orAll {T : Table} {ts : List Ty} (h : Cans T ts) (hne : ts ≠ []) : Can T (orAll ts) := by
  have hmem : ∀ x ∈ addAll [] (ts.flatMap members), Can T x ∧ ∀ l, x ≠ .union l := by
    intro x hx
    rcases mem_addAll hx with hx | hx
    · simp at hx
    · obtain ⟨t, ht, hx⟩ := List.mem_flatMap.1 hx
      exact (members_not_union (cans_iff.1 h t ht)).2 x hx
  have hnd := nodup_addAll [] (ts.flatMap members) (by simp)
  have hnn : addAll [] (ts.flatMap members) ≠ [] := by
    refine addAll_ne_nil (.inr ?_)
    cases h with
    | nil => simp at hne
    | cons h hs =>
      have := (members_not_union h).1
      simp [this]
  rw [orAll]
  generalize addAll [] (ts.flatMap members) = l at hmem hnd hnn
  match l, hmem, hnd, hnn with
  | [t], hm, _, _ => exact (hm t (by simp)).1
  | t :: u :: us, hm, hd, _ => exact .union (cans_iff.2 fun x hx => (hm x hx).1) hd fun x hx => (hm x hx).2

theorem orAll_can {t u : Ty} {ts : List Ty} (hn : (t :: u :: ts).Nodup) (hu : ∀ x ∈ t :: u :: ts, ∀ l, x ≠ .union l) :
    orAll (t :: u :: ts) = .union (t :: u :: ts) := by
  have hm : ∀ l : List Ty, (∀ x ∈ l, ∀ m, x ≠ .union m) → l.flatMap members = l := by
    intro l hl
    induction l with
    | nil => rfl
    | cons x l ih =>
      rw [List.flatMap_cons, ih fun y hy => hl y (by simp [hy])]
      have := hl x (by simp)
      cases x <;> simp [members] at this ⊢
  rw [orAll, hm _ hu, addAll_nodup [] _ (by simpa using hn)]
  rfl

mutual

theorem can_subst {T : Table} {s : List (Nat × Ty)} (hs : ∀ n t, s.lookup n = some t → Can T t) :
    ∀ t, Can T t → Can T (t.subst s)
  | .var n, _ => by
    rw [Ty.subst]
    cases h : s.lookup n with
    | none => exact .var
    | some t => exact hs n t h
  | .gen o ts, h => by
    rw [Ty.subst]
    have hts : Cans T ts := by cases h <;> assumption
    have := cans_substs hs ts hts
    cases h with
    | gen h _ => exact .gen h this
    | guser h _ => exact .guser h this
  | .union ts, h => by
    rw [Ty.subst]
    have hts : Cans T ts := by cases h; assumption
    have := cans_substs hs ts hts
    refine can_orAll this ?_
    cases h
    simp [substs]
  | .seq ts, h => by
    rw [Ty.subst]
    have hts : Cans T ts := by cases h; assumption
    exact .seq (cans_substs hs ts hts)
  | .con _, h => h
  | .user _ _, h => h
  | .generic _, h => h
  | .protocol _, h => h
  | .any, h => h
  | .ell, h => h
  | .none, h => h
  | .vtuple _, h => h
  | .ann _ _, h => h
  | .lit _, h => h
  | .newtype _ _, h => h
  | .alias _, h => h
  | .concat _, h => h
termination_by structural t => t

theorem cans_substs {T : Table} {s : List (Nat × Ty)} (hs : ∀ n t, s.lookup n = some t → Can T t) :
    ∀ ts, Cans T ts → Cans T (substs s ts)
  | [], _ => .nil
  | t :: ts, h => by
    rw [substs]
    have h1 : Can T t := by cases h; assumption
    have h2 : Cans T ts := by cases h; assumption
    exact .cons (can_subst hs t h1) (cans_substs hs ts h2)
termination_by structural ts => ts

end

theorem lookup_zip {ps : List Nat} {args : List Ty} {n : Nat} {t : Ty} (h : (ps.zip args).lookup n = some t) : t ∈ args := by
  induction ps generalizing args with
  | nil => simp at h
  | cons p ps ih =>
    cases args with
    | nil => simp at h
    | cons a args =>
      rw [List.zip_cons_cons, List.lookup_cons] at h
      split at h
      · cases h; simp
      · simp [ih h]

theorem can_subscript {T : Table} {o u : Ty} {args : List Ty} (ho : Can T o) (ha : Cans T args)
    (h : subscript o args = some u) : Can T u := by
  cases ho with
  | con hc => simp [subscript] at h; subst h; exact .gen hc ha
  | user hb => simp [subscript] at h; subst h; exact .guser hb ha
  | gen hc hs =>
    simp only [subscript] at h
    split at h
    · cases h
    · split at h
      · cases h
        exact .gen hc (cans_substs (fun n t hl => cans_iff.1 ha t (lookup_zip hl)) _ hs)
      · cases h
  | guser hc hs =>
    simp only [subscript] at h
    split at h
    · cases h
    · split at h
      · cases h
        exact .guser hc (cans_substs (fun n t hl => cans_iff.1 ha t (lookup_zip hl)) _ hs)
      · cases h
  | var => simp [subscript] at h
  | any => simp [subscript] at h
  | ell => simp [subscript] at h
  | none => simp [subscript] at h
  | union => simp [subscript] at h
  | seq => simp [subscript] at h

mutual

theorem can_canon {T : Table} (H : T.Ok) : ∀ t u, canon T t = some u → Can T u
  | .con c, u, h => by
    simp only [canon, Option.some.injEq] at h
    rcases H.cn c with ⟨d, e, hd⟩ | ⟨d, e, he, hd, hee⟩
    · rw [← h, e]; exact .con hd
    · rw [← h, he]; exact .gen hd (.cons (.con hee) .nil)
  | .user n bs, u, h => by
    rw [canon] at h
    cases hb : canonBases T bs with
    | none => simp [hb] at h
    | some r =>
      cases r with
      | none => simp only [hb, Option.some.injEq] at h; subst h; exact .user hb
      | some b => simp only [hb, Option.some.injEq] at h; subst h; exact can_bases H bs b hb
  | .generic _, u, h => by simp [canon] at h
  | .protocol _, u, h => by simp [canon] at h; subst h; exact .any
  | .var n, u, h => by simp [canon] at h; subst h; exact .var
  | .any, u, h => by simp [canon] at h; subst h; exact .any
  | .ell, u, h => by simp [canon] at h; subst h; exact .ell
  | .none, u, h => by simp [canon] at h; subst h; exact .none
  | .gen o ts, u, h => by
    rw [canon] at h
    cases ho : canon T o with
    | none => simp [ho] at h
    | some o' =>
      cases hs : canons T ts with
      | none => simp [ho, hs] at h
      | some ts' =>
        simp only [ho, hs] at h
        exact can_subscript (can_canon H o o' ho) (cans_canons H ts ts' hs) h
  | .vtuple t, u, h => by
    rw [canon] at h
    cases ht : canon T t with
    | none => simp [ht] at h
    | some t' =>
      simp only [ht, Option.some.injEq] at h
      subst h
      exact .gen H.sequence (.cons (can_canon H t t' ht) .nil)
  | .union [], u, h => by simp [canon] at h
  | .union (t :: ts), u, h => by
    rw [canon] at h
    cases ho : canon T t with
    | none => simp [ho] at h
    | some t' =>
      cases hs : canons T ts with
      | none => simp [ho, hs] at h
      | some ts' =>
        simp only [ho, hs, Option.some.injEq] at h
        subst h
        exact can_orAll (.cons (can_canon H t t' ho) (cans_canons H ts ts' hs)) (by simp)
  | .ann t _, u, h => by rw [canon] at h; exact can_canon H t u h
  | .lit [], u, h => by simp [canon] at h
  | .lit (t :: ts), u, h => by
    rw [canon] at h
    cases ho : canon T t with
    | none => simp [ho] at h
    | some t' =>
      cases hs : canons T ts with
      | none => simp [ho, hs] at h
      | some ts' =>
        simp only [ho, hs, Option.some.injEq] at h
        subst h
        exact can_orAll (.cons (can_canon H t t' ho) (cans_canons H ts ts' hs)) (by simp)
  | .newtype _ t, u, h => by rw [canon] at h; exact can_canon H t u h
  | .alias t, u, h => by rw [canon] at h; exact can_canon H t u h
  | .concat _, u, h => by simp [canon] at h; subst h; exact .ell
  | .seq ts, u, h => by
    rw [canon] at h
    cases hs : canons T ts with
    | none => simp [hs] at h
    | some ts' =>
      simp only [hs, Option.some.injEq] at h
      subst h
      exact .seq (cans_canons H ts ts' hs)
termination_by structural t => t

theorem cans_canons {T : Table} (H : T.Ok) : ∀ ts us, canons T ts = some us → Cans T us
  | [], us, h => by simp [canons] at h; subst h; exact .nil
  | t :: ts, us, h => by
    rw [canons] at h
    cases ho : canon T t with
    | none => simp [ho] at h
    | some t' =>
      cases hs : canons T ts with
      | none => simp [ho, hs] at h
      | some ts' =>
        simp only [ho, hs, Option.some.injEq] at h
        subst h
        exact .cons (can_canon H t t' ho) (cans_canons H ts ts' hs)
termination_by structural ts => ts

theorem can_bases {T : Table} (H : T.Ok) : ∀ bs b, canonBases T bs = some (some b) → Can T b
  | [], b, h => by simp [canonBases] at h
  | c :: bs, b, h => by
    have ih1 := can_canon H c
    have ih2 := can_bases H bs b
    rw [canonBases.eq_def] at h
    simp only at h
    split at h
    · exact ih2 h
    · cases hc : canon T c with
      | none => simp [hc] at h
      | some c' =>
        simp only [hc] at h
        split at h
        · exact ih2 h
        · simp only [Option.some.injEq] at h
          subst h
          exact ih1 _ hc
termination_by structural bs => bs

end

mutual

theorem canon_can {T : Table} : ∀ t, Can T t → canon T t = some t
  | .con c, h => by cases h with | con h => rw [canon, h]
  | .user n bs, h => by cases h with | user h => simp [canon, h]
  | .var n, _ => rfl
  | .any, _ => rfl
  | .ell, _ => rfl
  | .none, _ => rfl
  | .gen o ts, h => by
    have hts : Cans T ts := by cases h <;> assumption
    have hs := canons_can ts hts
    cases h with
    | gen h _ => simp [canon, h, hs, subscript]
    | guser h _ => simp [canon, h, hs, subscript]
  | .union [], h => nomatch h
  | .union (t :: ts), h => by
    have hts : Can T t ∧ Cans T ts := by cases h with | union h _ _ => cases h; constructor <;> assumption
    have h1 := canon_can t hts.1
    have h2 := canons_can ts hts.2
    rw [canon, h1, h2]
    cases h with
    | union _ hn hu => exact congrArg some (orAll_can hn hu)
  | .seq ts, h => by
    have hts : Cans T ts := by cases h; assumption
    simp [canon, canons_can ts hts]
  | .generic _, h => nomatch h
  | .protocol _, h => nomatch h
  | .vtuple _, h => nomatch h
  | .ann _ _, h => nomatch h
  | .lit _, h => nomatch h
  | .newtype _ _, h => nomatch h
  | .alias _, h => nomatch h
  | .concat _, h => nomatch h
termination_by structural t => t

theorem canons_can {T : Table} : ∀ ts, Cans T ts → canons T ts = some ts
  | [], _ => rfl
  | t :: ts, h => by
    have h1 : Can T t := by cases h; assumption
    have h2 : Cans T ts := by cases h; assumption
    rw [canons, canon_can t h1, canons_can ts h2]
termination_by structural ts => ts

end

/-! ## Theorems -/

/-- The canonical form of a type is its own canonical form. (`unify` calls itself as long as its arguments are not.) -/
theorem C68_idempotent (T : Table) (H : T.Ok) (t u : Ty) (h : canon T t = some u) : canon T u = some u :=
  canon_can u (can_canon H t u h)

/-- For a class `C` of the user whose first base, other than `Generic[…]`, has as canonical form an alias, and whose
declared parameters `ps` are the type variables of that alias in order: the canonical form of `C[args]` is that alias with
the parameters replaced by the canonical forms of the arguments. -/
theorem C68_arguments_partial (T : Table) (n : Nat) (ps : List Nat) (b : Ty) (bs : List Ty) (p : Ty) (ts : List Ty)
    (hb : ∀ qs, b ≠ .generic qs) (hc : canon T b = some (.gen p ts)) (hp : firsts [] (varss ts) = ps) (hne : ps ≠ [])
    (args args' : List Ty) (ha : canons T args = some args') (hl : args'.length = ps.length) :
    canon T (.gen (.user n (.generic ps :: b :: bs)) args) = some (.gen p (substs (ps.zip args') ts)) := by
  have hbs : canonBases T (.generic ps :: b :: bs) = some (some (.gen p ts)) := by
    rw [canonBases]
    cases b with
    | generic qs => exact absurd rfl (hb qs)
    | _ => simp [canonBases, hc, Ty.beq]
  simp [canon, hbs, ha, subscript, hp, hne, hl]

/-- With another number of arguments than the canonical base has type variables there is a `TypeError`. -/
theorem C68_arity (T : Table) (o p : Ty) (ts : List Ty) (ho : canon T o = some (.gen p ts)) (ps : List Nat) (hn : ps.Nodup)
    (hp : ∀ n, n ∈ ps ↔ n ∈ varss ts) (args : List Ty) (hl : args.length ≠ ps.length) : canon T (.gen o args) = none := by
  have hlen : (firsts [] (varss ts)).length = ps.length := by
    have key : ∀ (l seen : List Nat), (firsts seen l).Nodup ∧ ∀ n, n ∈ firsts seen l ↔ n ∈ l ∧ n ∉ seen := by
      intro l
      induction l with
      | nil => intro seen; simp [firsts]
      | cons m l ih =>
        intro seen
        rw [firsts]
        split
        · rename_i h
          have h : m ∈ seen := by simpa using h
          refine ⟨(ih seen).1, fun n => ?_⟩
          rw [(ih seen).2 n, List.mem_cons]
          constructor
          · rintro ⟨h1, h2⟩; exact ⟨.inr h1, h2⟩
          · rintro ⟨rfl | h1, h2⟩
            · exact absurd h h2
            · exact ⟨h1, h2⟩
        · rename_i h
          have h : m ∉ seen := by simpa using h
          refine ⟨List.nodup_cons.2 ⟨fun hm => ?_, (ih _).1⟩, fun n => ?_⟩
          · exact ((ih _).2 m).1 hm |>.2 List.mem_cons_self
          · rw [List.mem_cons, (ih _).2 n, List.mem_cons, List.mem_cons]
            constructor
            · rintro (rfl | ⟨h1, h2⟩)
              · exact ⟨.inl rfl, h⟩
              · exact ⟨.inr h1, fun h3 => h2 (.inr h3)⟩
            · rintro ⟨rfl | h1, h2⟩
              · exact .inl rfl
              · by_cases e : n = m
                · exact .inl e
                · exact .inr ⟨h1, fun h3 => h3.elim e h2⟩
    have hf := key (varss ts) []
    have h1 : (firsts [] (varss ts)).Perm ps :=
      (List.perm_ext_iff_of_nodup hf.1 hn).2 fun n => by rw [hf.2 n, hp n]; simp
    exact h1.length_eq
  have hlen' : ∀ args', canons T args = some args' → args'.length = args.length := by
    clear hl
    induction args with
    | nil => intro a h; simp [canons] at h; simp [← h]
    | cons x xs ih =>
      intro a h
      rw [canons] at h
      cases hx : canon T x with
      | none => simp [hx] at h
      | some x' =>
        cases hs : canons T xs with
        | none => simp [hx, hs] at h
        | some xs' =>
          simp only [hx, hs, Option.some.injEq] at h
          simp [← h, ih _ hs]
  rw [canon, ho]
  cases hs : canons T args with
  | none => rfl
  | some args' =>
    simp only [subscript]
    split
    · rfl
    · rw [if_neg (by rw [hlen, hlen' _ hs]; exact Ne.symm hl)]

namespace Example

/-- `object` is 0, `int` 1, `str` 2, `list` 3, `MutableSequence` 4, `range` 5, `Sequence` 6, `dict` 7, `MutableMapping` 8. -/
def T : Table where
  cn
    | 3 => .con 4
    | 5 => .gen (.con 6) [.con 1]
    | 7 => .con 8
    | c => .con c
  object := 0
  sequence := 6

theorem ok : T.Ok where
  cn c := by
    simp only [T]
    split
    · exact .inl ⟨4, rfl, rfl⟩
    · exact .inr ⟨6, 1, rfl, rfl, rfl⟩
    · exact .inl ⟨8, rfl, rfl⟩
    · rename_i h1 h2 h3
      refine .inl ⟨c, rfl, ?_⟩
      split
      · exact absurd rfl h1
      · exact absurd rfl h2
      · exact absurd rfl h3
      · rfl
  sequence := rfl

/-- `class C(Generic[K, V], dict[K, list[V]])`. -/
def C : Ty := .user 20 [.generic [0, 1], .gen (.con 7) [.var 0, .gen (.con 3) [.var 1]]]

example : canon T (.gen C [.con 2, .con 5]) =
    some (.gen (.con 8) [.con 2, .gen (.con 4) [.gen (.con 6) [.con 1]]]) := rfl
example : canon T (.union [.con 3, .ann (.con 4) 0, .none]) = some (.union [.con 4, .none]) := rfl

example : canon T C = some (.gen (.con 8) [.var 0, .gen (.con 4) [.var 1]]) ∧ [0, 1].Nodup ∧
    (∀ n, n ∈ [0, 1] ↔ n ∈ varss [.var 0, .gen (.con 4) [.var 1]]) ∧ canon T (.gen C [.con 1]) = none :=
  ⟨rfl, by decide, fun n => by simp [varss, Ty.vars], rfl⟩

end Example

open Example in
/-- The order of the declared parameters is not used: for `class C(Generic[K, V], dict[V, K])` the canonical form of
`C[int, str]`, which is a `dict[str, int]`, is `MutableMapping[int, str]`. -/
theorem C68_order_fails : ∃ (T : Table) (n int str dict mm : Nat), T.Ok ∧ int ≠ str ∧ canon T (.con dict) = some (.con mm) ∧
    canon T (.gen (.user n [.generic [0, 1], .gen (.con dict) [.var 1, .var 0]]) [.con int, .con str]) =
      canon T (.gen (.con dict) [.con int, .con str]) :=
  ⟨T, 20, 1, 2, 7, 8, ok, by decide, rfl, rfl⟩

open Example in
/-- A parameter that does not occur in the base: `C[str]` for `class C(Generic[T], list[int])` has no canonical form. -/
theorem C68_phantom_fails : ∃ (T : Table) (n int str list : Nat), T.Ok ∧
    canon T (.user n [.generic [0], .gen (.con list) [.con int]]) ≠ none ∧
    canon T (.gen (.user n [.generic [0], .gen (.con list) [.con int]]) [.con str]) = none :=
  ⟨T, 20, 1, 2, 3, ok, by simp [canon, canonBases, canons, Example.T, subscript, Ty.beq], rfl⟩

/-- Classes are not told apart: two different classes of the user with the same base (not `object`) have the same canonical
form, that of the base. -/
theorem C68_siblings_fails (T : Table) (m n : Nat) (b : Ty) (hb : ∀ ps, b ≠ .generic ps) (c : Ty)
    (hc : canon T b = some c) (ho : c ≠ .con T.object) :
    canon T (.user m [b]) = some c ∧ canon T (.user n [b]) = some c := by
  have h : canonBases T [b] = some (some c) := by
    have hf : Ty.beq c (.con T.object) = false := Bool.eq_false_iff.2 fun h => ho (eq_of_beq _ _ h)
    cases b with
    | generic ps => exact absurd rfl (hb ps)
    | _ => simp [canonBases, hc, hf]
  simp [canon, h]

-- `class Animal`, `class Dog(Animal)`, `class Cat(Animal)`
example : canon Example.T (.user 31 [.user 30 [.con 0]]) = some (.user 30 [.con 0]) ∧
    canon Example.T (.user 32 [.user 30 [.con 0]]) = some (.user 30 [.con 0]) := ⟨rfl, rfl⟩

/-- An alias of a protocol, as `SupportsAbs[int]`, has no canonical form, although the protocol has. -/
theorem C68_protocol_fails (T : Table) (n : Nat) (ts : List Ty) :
    canon T (.protocol n) = some .any ∧ canon T (.gen (.protocol n) ts) = none := by
  refine ⟨rfl, ?_⟩
  rw [canon, canon]
  cases canons T ts <;> rfl

end Verif.Canon
