/-!
# C66: types with codecs

Model of `TypeEvaluator.evaluate` (`internals/unification.py` 120-185) and of `TypeToPydanticType.evaluate`, which is
`Encodable[…]` (`handlers/llm/encoding.py` 130-166).

* Classes, type variables and other objects are numbers. `Concatenate`, `ParamSpec` arguments, forward references and
  `NewType` are left out.
* The registry is given by a function on classes and generic aliases; what it gives for `Annotated` is that type
  (the entry for `object`).
* `a | b` flattens unions and drops members that are equal to an earlier one.
-/

namespace Verif.Encodable

/-- Type expressions; `seq` are tuples and lists of objects, `obj` other objects, such as metadata. -/
inductive Ty where
  | con (c : Nat)
  | var (n : Nat)
  | ell
  | none
  | lit (n : Nat)
  | obj (n : Nat)
  | gen (c : Nat) (ts : List Ty)
  | union (ts : List Ty)
  | ann (t : Ty) (ms : List Ty)
  | seq (ts : List Ty)
  | alias (t : Ty)

mutual

/-- `==`. -/
def Ty.beq : Ty → Ty → Bool
  | .con a, .con b => a == b
  | .var a, .var b => a == b
  | .ell, .ell => true
  | .none, .none => true
  | .lit a, .lit b => a == b
  | .obj a, .obj b => a == b
  | .gen c ts, .gen d us => c == d && Ty.beqs ts us
  | .union ts, .union us => Ty.beqs ts us
  | .ann t ms, .ann u ns => Ty.beq t u && Ty.beqs ms ns
  | .seq ts, .seq us => Ty.beqs ts us
  | .alias t, .alias u => Ty.beq t u
  | _, _ => false
termination_by structural t => t

def Ty.beqs : List Ty → List Ty → Bool
  | [], [] => true
  | t :: ts, u :: us => Ty.beq t u && Ty.beqs ts us
  | _, _ => false
termination_by structural ts => ts

end

/-- Whether a type is in a list. -/
def elem (t : Ty) : List Ty → Bool
  | [] => false
  | u :: us => Ty.beq t u || elem t us

/-- The members of a union. -/
def members : Ty → List Ty
  | .union ts => ts
  | t => [t]

/-- Adding members that are not there yet. -/
def addAll (l : List Ty) : List Ty → List Ty
  | [] => l
  | t :: ts => addAll (if elem t l then l else l ++ [t]) ts

/-- A union of members. -/
def ofMembers : List Ty → Ty
  | [t] => t
  | ts => .union ts

/-- `a | b`. -/
def or (a b : Ty) : Ty := ofMembers (addAll (addAll [] (members a)) (members b))

/-- `typing.Annotated[t, *ms]`: nested annotations are merged. -/
def annotated (t : Ty) (ms : List Ty) : Ty :=
  match t with
  | .ann u ns => .ann u (ns ++ ms)
  | t => .ann t ms

/-- `ctyp | …` in order (136-141). -/
def orAll : List Ty → Ty
  | [] => .union []
  | t :: ts => ts.foldl or t

mutual

/-- `evaluate(typ)`; `hook` is the registry, applied to classes and generic aliases. -/
def evaluate (hook : Ty → Ty) : Ty → Ty
  | .con c => hook (.con c)
  | .var n => .var n
  | .ell => .ell
  | .none => .none
  | .lit n => .lit n
  | .obj n => .obj n
  | .gen c ts => hook (.gen c (evaluates hook ts))
  | .union ts => orAll (evaluates hook ts)
  | .ann t ms => annotated (evaluate hook t) [.seq ms]
  | .seq ts => .seq (evaluates hook ts)
  | .alias t => evaluate hook t
termination_by structural t => t

def evaluates (hook : Ty → Ty) : List Ty → List Ty
  | [] => []
  | t :: ts => evaluate hook t :: evaluates hook ts
termination_by structural ts => ts

end

/-! ## What is stated -/

mutual

/-- A type that Python can build, without annotations and aliases, that has no registered part: `hook` leaves its classes and
generic aliases alone. Unions have at least two members, which are different and not unions. -/
inductive Plain (hook : Ty → Ty) : Ty → Prop
  | con {c} : hook (.con c) = .con c → Plain hook (.con c)
  | var {n} : Plain hook (.var n)
  | ell : Plain hook .ell
  | none : Plain hook .none
  | lit {n} : Plain hook (.lit n)
  | gen {c ts} : hook (.gen c ts) = .gen c ts → Plains hook ts → Plain hook (.gen c ts)
  | union {t u ts} : Plains hook (t :: u :: ts) → (t :: u :: ts).Nodup →
      (∀ x ∈ t :: u :: ts, ∀ l, x ≠ .union l) → Plain hook (.union (t :: u :: ts))
  | seq {ts} : Plains hook ts → Plain hook (.seq ts)

inductive Plains (hook : Ty → Ty) : List Ty → Prop
  | nil : Plains hook []
  | cons {t ts} : Plain hook t → Plains hook ts → Plains hook (t :: ts)

end

mutual

/-- Every class of `R` in a type is annotated with its codec `obj (codec c)`. Metadata is not looked at. -/
inductive Covered (R : Nat → Prop) (codec : Nat → Nat) : Ty → Prop
  | con {c} : ¬ R c → Covered R codec (.con c)
  | var {n} : Covered R codec (.var n)
  | ell : Covered R codec .ell
  | none : Covered R codec .none
  | lit {n} : Covered R codec (.lit n)
  | obj {n} : Covered R codec (.obj n)
  | gen {c ts} : Covereds R codec ts → Covered R codec (.gen c ts)
  | union {ts} : Covereds R codec ts → Covered R codec (.union ts)
  | coded {c ms} : Covered R codec (.ann (.con c) (.obj (codec c) :: ms))
  | ann {t ms} : Covered R codec t → Covered R codec (.ann t ms)
  | seq {ts} : Covereds R codec ts → Covered R codec (.seq ts)

inductive Covereds (R : Nat → Prop) (codec : Nat → Nat) : List Ty → Prop
  | nil : Covereds R codec []
  | cons {t ts} : Covered R codec t → Covereds R codec ts → Covereds R codec (t :: ts)

end

/-- The registry annotates exactly the classes of `R`, each with its codec. -/
structure Registry (R : Nat → Prop) (codec : Nat → Nat) (hook : Ty → Ty) : Prop where
  class_in : ∀ c, R c → hook (.con c) = .ann (.con c) [.obj (codec c)]
  class_out : ∀ c, ¬ R c → hook (.con c) = .con c
  alias : ∀ c ts, hook (.gen c ts) = .gen c ts

/-! ## Proofs -/

mutual

theorem eq_of_beq : ∀ (t u : Ty), Ty.beq t u = true → t = u
  | .con a, u, h => by cases u <;> simp [Ty.beq] at h; rw [h]
  | .var a, u, h => by cases u <;> simp [Ty.beq] at h; rw [h]
  | .ell, u, h => by cases u <;> simp [Ty.beq] at h; rfl
  | .none, u, h => by cases u <;> simp [Ty.beq] at h; rfl
  | .lit a, u, h => by cases u <;> simp [Ty.beq] at h; rw [h]
  | .obj a, u, h => by cases u <;> simp [Ty.beq] at h; rw [h]
  | .gen c ts, u, h => by
    cases u <;> simp [Ty.beq] at h
    rw [h.1, eq_of_beqs ts _ h.2]
  | .union ts, u, h => by
    cases u <;> simp [Ty.beq] at h
    rw [eq_of_beqs ts _ h]
  | .ann t ms, u, h => by
    cases u <;> simp [Ty.beq] at h
    rw [eq_of_beq t _ h.1, eq_of_beqs ms _ h.2]
  | .seq ts, u, h => by
    cases u <;> simp [Ty.beq] at h
    rw [eq_of_beqs ts _ h]
  | .alias t, u, h => by
    cases u <;> simp [Ty.beq] at h
    rw [eq_of_beq t _ h]

theorem eq_of_beqs : ∀ (ts us : List Ty), Ty.beqs ts us = true → ts = us
  | [], us, h => by cases us <;> simp [Ty.beqs] at h; rfl
  | t :: ts, us, h => by
    cases us with
    | nil => simp [Ty.beqs] at h
    | cons u us =>
      simp [Ty.beqs] at h
      rw [eq_of_beq t u h.1, eq_of_beqs ts us h.2]

end

theorem mem_of_elem {t : Ty} {l : List Ty} (h : elem t l = true) : t ∈ l := by
  induction l with
  | nil => simp [elem] at h
  | cons u us ih =>
    simp [elem] at h
    rcases h with h | h
    · rw [eq_of_beq t u h]; simp
    · simp [ih h]

theorem addAll_nodup (l ts : List Ty) (h : (l ++ ts).Nodup) : addAll l ts = l ++ ts := by
  induction ts generalizing l with
  | nil => simp [addAll]
  | cons t ts ih =>
    have ht : elem t l = false := by
      refine Bool.eq_false_iff.2 fun he => ?_
      have := mem_of_elem he
      rw [List.nodup_append] at h
      exact h.2.2 t this t (by simp) rfl
    rw [addAll, ht]
    simp only [Bool.false_eq_true, if_false]
    rw [ih (l ++ [t]) (by simpa using h)]
    simp

theorem members_of_not_union {t : Ty} (h : ∀ l, t ≠ .union l) : members t = [t] := by
  cases t <;> simp [members] at h ⊢

theorem foldl_or (us ts : List Ty) (hu : us ≠ []) (hn : (us ++ ts).Nodup) (h1 : ∀ x ∈ us ++ ts, ∀ l, x ≠ .union l) :
    ts.foldl or (ofMembers us) = ofMembers (us ++ ts) := by
  induction ts generalizing us with
  | nil => simp
  | cons t ts ih =>
    rw [List.foldl_cons]
    have hm : members (ofMembers us) = us := by
      cases us with
      | nil => simp at hu
      | cons u us =>
        cases us with
        | nil => exact members_of_not_union (h1 u (by simp))
        | cons v vs => rfl
    have hn' : (us ++ [t]).Nodup := by
      have : (us ++ t :: ts) = (us ++ [t]) ++ ts := by simp
      rw [this] at hn
      exact (List.nodup_append.1 hn).1
    have : or (ofMembers us) t = ofMembers (us ++ [t]) := by
      rw [or, hm, members_of_not_union (h1 t (by simp)), addAll_nodup [] us (by simpa using (List.nodup_append.1 hn').1),
        List.nil_append, addAll_nodup us [t] hn']
    rw [this, ih (us ++ [t]) (by simp) (by simpa using hn) (by simpa using h1)]
    simp

mutual

theorem evaluate_plain (hook : Ty → Ty) : ∀ t, Plain hook t → evaluate hook t = t
  | .con c, h => by cases h with | con h => rw [evaluate, h]
  | .var n, _ => rfl
  | .ell, _ => rfl
  | .none, _ => rfl
  | .lit n, _ => rfl
  | .obj n, _ => rfl
  | .gen c ts, h => by
    cases h with
    | gen h hs => rw [evaluate, evaluates_plain hook ts hs, h]
  | .union ts, h => by
    have hs : Plains hook ts := by cases h; assumption
    rw [evaluate, evaluates_plain hook ts hs]
    cases h with
    | union _ hn hu =>
      exact foldl_or [_] (_ :: _) (by simp) hn hu
  | .ann t ms, h => nomatch h
  | .seq ts, h => by cases h with | seq hs => rw [evaluate, evaluates_plain hook ts hs]
  | .alias t, h => nomatch h
termination_by structural t => t

theorem evaluates_plain (hook : Ty → Ty) : ∀ ts, Plains hook ts → evaluates hook ts = ts
  | [], _ => rfl
  | t :: ts, h => by
    cases h with
    | cons h hs => rw [evaluates, evaluate_plain hook t h, evaluates_plain hook ts hs]
termination_by structural ts => ts

end

variable {R : Nat → Prop} {codec : Nat → Nat}

theorem covereds_iff {ts : List Ty} : Covereds R codec ts ↔ ∀ t ∈ ts, Covered R codec t := by
  induction ts with
  | nil => exact ⟨fun _ => by simp, fun _ => .nil⟩
  | cons t ts ih =>
    constructor
    · intro h
      cases h with
      | cons h hs => simpa using ⟨h, ih.1 hs⟩
    · intro h
      exact .cons (h t (by simp)) (ih.2 fun x hx => h x (by simp [hx]))

theorem mem_addAll {x : Ty} {l ts : List Ty} (h : x ∈ addAll l ts) : x ∈ l ∨ x ∈ ts := by
  induction ts generalizing l with
  | nil => exact .inl h
  | cons t ts ih =>
    rw [addAll] at h
    rcases ih h with h | h
    · split at h
      · exact .inl h
      · rcases List.mem_append.1 h with h | h
        · exact .inl h
        · simp at h; simp [h]
    · simp [h]

theorem covered_members {t : Ty} (h : Covered R codec t) : ∀ x ∈ members t, Covered R codec x := by
  cases t with
  | union ts => cases h with | union h => exact covereds_iff.1 h
  | _ => simpa [members] using h

theorem covered_or {a b : Ty} (ha : Covered R codec a) (hb : Covered R codec b) : Covered R codec (or a b) := by
  have : ∀ x ∈ addAll (addAll [] (members a)) (members b), Covered R codec x := by
    intro x hx
    rcases mem_addAll hx with hx | hx
    · rcases mem_addAll hx with hx | hx
      · simp at hx
      · exact covered_members ha x hx
    · exact covered_members hb x hx
  rw [or]
  generalize addAll (addAll [] (members a)) (members b) = l at this
  match l, this with
  | [], h => exact .union (covereds_iff.2 h)
  | [t], h => exact h t (by simp)
  | t :: u :: ts, h => exact .union (covereds_iff.2 h)

theorem covered_orAll {ts : List Ty} (h : Covereds R codec ts) : Covered R codec (orAll ts) := by
  cases h with
  | nil => exact .union .nil
  | cons h hs =>
    rename_i t ts
    rw [orAll]
    replace hs := covereds_iff.1 hs
    induction ts generalizing t with
    | nil => exact h
    | cons u us ih => exact ih (covered_or h (hs u (by simp))) (fun x hx => hs x (by simp [hx]))

theorem covered_annotated {t : Ty} (ms : List Ty) (h : Covered R codec t) : Covered R codec (annotated t ms) := by
  cases t with
  | ann u ns =>
    cases h with
    | coded => exact .coded
    | ann h => exact .ann h
  | _ => exact .ann h

mutual

theorem covered_evaluate {hook : Ty → Ty} (H : Registry R codec hook) : ∀ t, Covered R codec (evaluate hook t)
  | .con c => by
    rw [evaluate]
    by_cases hc : R c
    · rw [H.class_in c hc]; exact .coded
    · rw [H.class_out c hc]; exact .con hc
  | .var _ => .var
  | .ell => .ell
  | .none => .none
  | .lit _ => .lit
  | .obj _ => .obj
  | .gen c ts => by rw [evaluate, H.alias]; exact .gen (covered_evaluates H ts)
  | .union ts => by rw [evaluate]; exact covered_orAll (covered_evaluates H ts)
  | .ann t ms => by rw [evaluate]; exact covered_annotated _ (covered_evaluate H t)
  | .seq ts => by rw [evaluate]; exact .seq (covered_evaluates H ts)
  | .alias t => by rw [evaluate]; exact covered_evaluate H t
termination_by structural t => t

theorem covered_evaluates {hook : Ty → Ty} (H : Registry R codec hook) : ∀ ts, Covereds R codec (evaluates hook ts)
  | [] => .nil
  | t :: ts => by rw [evaluates]; exact .cons (covered_evaluate H t) (covered_evaluates H ts)
termination_by structural ts => ts

end

/-! ## Theorems -/

/-- A type without registered parts, annotations and aliases is not changed. -/
theorem C66_plain_partial (hook : Ty → Ty) (t : Ty) (h : Plain hook t) : evaluate hook t = t := evaluate_plain hook t h

/-- Every class with a codec is annotated with it, at any depth. -/
theorem C66_covered (R : Nat → Prop) (codec : Nat → Nat) (hook : Ty → Ty) (H : Registry R codec hook) (t : Ty) :
    Covered R codec (evaluate hook t) := covered_evaluate H t

/-- What becomes of an annotated class or type without registered parts: the metadata is put into one tuple. -/
theorem C66_annotated (hook : Ty → Ty) (t : Ty) (ms : List Ty) (h : Plain hook t) :
    evaluate hook (.ann t ms) = .ann t [.seq ms] := by
  rw [evaluate, evaluate_plain hook t h]
  cases h <;> rfl

namespace Example

/-- Class 1 has a codec. -/
def hook : Ty → Ty
  | .con 1 => .ann (.con 1) [.obj 7]
  | t => t

theorem registry : Registry (· = 1) (fun _ => 7) hook where
  class_in c h := by subst h; rfl
  class_out c h := by
    unfold hook
    split
    · rename_i he; cases he; exact absurd rfl h
    · rfl
  alias _ _ := rfl

/-- `dict[str, list[C] | None]`. -/
example : evaluate hook (.gen 5 [.con 2, .union [.gen 6 [.con 1], .none]]) =
    .gen 5 [.con 2, .union [.gen 6 [.ann (.con 1) [.obj 7]], .none]] := rfl

example : Plain hook (.gen 5 [.con 2, .union [.gen 6 [.con 3], .none]]) := by
  refine .gen rfl (.cons (.con rfl) (.cons (.union (.cons (.gen rfl (.cons (.con rfl) .nil)) (.cons .none .nil)) ?_ ?_) .nil))
  · simp
  · intro x hx l; simp at hx; rcases hx with rfl | rfl <;> simp

end Example

open Example in
/-- `Encodable[Annotated[int, m]]` is not `Annotated[int, m]`: none of the metadata is metadata of the result. -/
theorem C66_metadata_fails : ∃ (hook : Ty → Ty) (t m : Ty), Plain hook t ∧
    ∃ ms, evaluate hook (.ann t [m]) = .ann t ms ∧ m ∉ ms :=
  ⟨hook, .con 2, .obj 3, .con rfl, [.seq [.obj 3]], rfl, by simp⟩

end Verif.Encodable
