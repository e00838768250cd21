/-!
# C67: the type inferred for a value

Model of `nested_type` (`internals/unification.py` 858-1112) on values built from lists, tuples, sets, frozensets, dicts,
strings and other objects.

* A dict is given by its keys and its values, in order. Other objects are given by their class; functions, operations, boxed
  types, interpretations and subclasses of the collections are left out.
* `typing.TypedDict(…)` makes a new class each time, so no typed dict is equal to another, nor is a type with one in it.
* `a | b` drops a member that is equal to an earlier one.
-/

namespace Verif.Nested

/-- Values; `atom c n` is the `n`-th object of the class `c`. -/
inductive V where
  | atom (c : Nat) (n : Nat)
  | str (n : Nat)
  | list (vs : List V)
  | tup (vs : List V)
  | set (vs : List V)
  | frozen (vs : List V)
  | dict (ks vs : List V)

/-- Classes: those of the model, and others. -/
inductive Cls where
  | str
  | tuple
  | dict
  | mutableSequence
  | mutableSet
  | setAbc
  | mutableMapping
  | other (c : Nat)
deriving DecidableEq

/-- Types: classes, generic aliases, unions, typed dicts with a required key for each of the `keys`. -/
inductive T where
  | con (c : Cls)
  | gen (c : Cls) (ts : List T)
  | union (ts : List T)
  | typed (keys : List Nat) (ts : List T)

mutual

/-- `==`; typed dicts are always different. -/
def T.beq : T → T → Bool
  | .con c, .con d => decide (c = d)
  | .gen c ts, .gen d us => decide (c = d) && T.beqs ts us
  | .union ts, .union us => T.beqs ts us
  | _, _ => false
termination_by structural t => t

def T.beqs : List T → List T → Bool
  | [], [] => true
  | t :: ts, u :: us => T.beq t u && T.beqs ts us
  | _, _ => false
termination_by structural ts => ts

end

def elem (t : T) : List T → Bool
  | [] => false
  | u :: us => T.beq t u || elem t us

/-- The members of a union. -/
def members : T → List T
  | .union ts => ts
  | t => [t]

/-- `a | b` for a `b` that is no union. -/
def or (a b : T) : T :=
  if elem b (members a) then a else .union (members a ++ [b])

/-- `functools.reduce(operator.or_, [t, *ts])`. -/
def reduceOr (t : T) (ts : List T) : T := ts.foldl or t

def isUnion : T → Bool
  | .union _ => true
  | _ => false

def isTyped : T → Bool
  | .typed _ _ => true
  | _ => false

def isStr : T → Bool
  | .con .str => true
  | _ => false

/-- The text of a key. -/
def keyName : V → Nat
  | .str n => n
  | _ => 0

/-- A collection of items with the given types (1080-1099); `bare` is `canonicalize(type(value))`. -/
def collection (bare : Cls) : List T → T
  | [] => .con bare
  | [t] => .gen bare [t]
  | t :: u :: ts => if isUnion (reduceOr t (u :: ts)) then .con bare else .gen bare [reduceOr t (u :: ts)]

/-- A dict with the given keys and types of keys and values (1043-1077). -/
def mapping (ks : List V) : List T → List T → T
  | [k], [v] => if isStr k && isTyped v then .typed (ks.map keyName) [v] else .gen .mutableMapping [k, v]
  | k :: k' :: ktys, v :: vtys =>
    if isStr (reduceOr k (k' :: ktys)) && isUnion (reduceOr v vtys) then .typed (ks.map keyName) (v :: vtys)
    else if isUnion (reduceOr k (k' :: ktys)) || isUnion (reduceOr v vtys) then .con .dict
    else .gen .mutableMapping [reduceOr k (k' :: ktys), reduceOr v vtys]
  | _, _ => .con .dict

mutual

/-- `nested_type(value).value`. -/
def nested : V → T
  | .atom c _ => .con (.other c)
  | .str _ => .con .str
  | .list vs => collection .mutableSequence (nesteds vs)
  | .set vs => collection .mutableSet (nesteds vs)
  | .frozen vs => collection .setAbc (nesteds vs)
  | .tup [] => .con .tuple
  | .tup (v :: vs) => .gen .tuple (nested v :: nesteds vs)
  | .dict ks vs => mapping ks (nesteds ks) (nesteds vs)
termination_by structural v => v

def nesteds : List V → List T
  | [] => []
  | v :: vs => nested v :: nesteds vs
termination_by structural vs => vs

end

/-! ## What is stated -/

/-- Instances of a class, without type arguments. -/
def IsA : V → Cls → Prop
  | .atom c _, d => d = .other c
  | .str _, d => d = .str
  | .list _, d => d = .mutableSequence
  | .tup _, d => d = .tuple
  | .set _, d => d = .mutableSet
  | .frozen _, d => d = .setAbc
  | .dict _ _, d => d = .dict ∨ d = .mutableMapping

mutual

/-- A value is of a type. -/
inductive Has : V → T → Prop
  | con {v c} : IsA v c → Has v (.con c)
  | list {vs t} : HasAll vs t → Has (.list vs) (.gen .mutableSequence [t])
  | set {vs t} : HasAll vs t → Has (.set vs) (.gen .mutableSet [t])
  | frozen {vs t} : HasAll vs t → Has (.frozen vs) (.gen .setAbc [t])
  | tup {vs ts} : HasEach vs ts → Has (.tup vs) (.gen .tuple ts)
  | dict {ks vs k v} : HasAll ks k → HasAll vs v → Has (.dict ks vs) (.gen .mutableMapping [k, v])
  | typed {ns vs ts} : HasEach vs ts → Has (.dict (ns.map .str) vs) (.typed ns ts)
  | union {v t ts} : t ∈ ts → Has v t → Has v (.union ts)

/-- All items are of a type. -/
inductive HasAll : List V → T → Prop
  | nil {t} : HasAll [] t
  | cons {v vs t} : Has v t → HasAll vs t → HasAll (v :: vs) t

/-- The items are of the types, one by one. -/
inductive HasEach : List V → List T → Prop
  | nil : HasEach [] []
  | cons {v vs t ts} : Has v t → HasEach vs ts → HasEach (v :: vs) (t :: ts)

end

mutual

/-- Dicts have as many keys as values. -/
def Wf : V → Prop
  | .atom _ _ => True
  | .str _ => True
  | .list vs => Wfs vs
  | .tup vs => Wfs vs
  | .set vs => Wfs vs
  | .frozen vs => Wfs vs
  | .dict ks vs => ks.length = vs.length ∧ Wfs ks ∧ Wfs vs
termination_by structural v => v

def Wfs : List V → Prop
  | [] => True
  | v :: vs => Wf v ∧ Wfs vs
termination_by structural vs => vs

end

/-! ## Proofs -/

mutual

theorem eq_of_beq : ∀ (t u : T), T.beq t u = true → t = u
  | .con c, u, h => by cases u <;> simp [T.beq] at h; rw [h]
  | .gen c ts, u, h => by
    cases u <;> simp [T.beq] at h
    rw [h.1, eq_of_beqs ts _ h.2]
  | .union ts, u, h => by
    cases u <;> simp [T.beq] at h
    rw [eq_of_beqs ts _ h]
  | .typed ks ts, u, h => by cases u <;> simp [T.beq] at h

theorem eq_of_beqs : ∀ (ts us : List T), T.beqs ts us = true → ts = us
  | [], us, h => by cases us <;> simp [T.beqs] at h; rfl
  | t :: ts, us, h => by
    cases us with
    | nil => simp [T.beqs] at h
    | cons u us =>
      simp [T.beqs] at h
      rw [eq_of_beq t u h.1, eq_of_beqs ts us h.2]

end

theorem mem_of_elem {t : T} {l : List T} (h : elem t l = true) : t ∈ l := by
  induction l with
  | nil => simp [elem] at h
  | cons u us ih =>
    simp [elem] at h
    rcases h with h | h
    · rw [eq_of_beq t u h]; simp
    · simp [ih h]

theorem isUnion_foldl (l ts : List T) : isUnion (ts.foldl or (.union l)) = true := by
  induction ts generalizing l with
  | nil => rfl
  | cons t ts ih =>
    rw [List.foldl_cons, or]
    split
    · exact ih l
    · exact ih _

/-- If a reduction is no union, all types are the first one. -/
theorem reduceOr_not_union {t : T} {ts : List T} (ht : isUnion t = false) (h : isUnion (reduceOr t ts) = false) :
    reduceOr t ts = t ∧ ∀ u ∈ ts, u = t := by
  induction ts with
  | nil => exact ⟨rfl, by simp⟩
  | cons u us ih =>
    have hm : members t = [t] := by cases t <;> simp [isUnion] at ht <;> rfl
    rw [reduceOr, List.foldl_cons, or, hm] at h ⊢
    by_cases he : elem u [t] = true
    · rw [if_pos he] at h ⊢
      have := mem_of_elem he
      simp at this
      have ih := ih h
      exact ⟨ih.1, by simpa [this] using ih.2⟩
    · rw [if_neg he] at h
      rw [isUnion_foldl] at h
      cases h

theorem not_union_collection (c : Cls) (ts : List T) : isUnion (collection c ts) = false := by
  unfold collection
  split <;> try rfl
  split <;> rfl

theorem not_union_mapping (ks : List V) (a b : List T) : isUnion (mapping ks a b) = false := by
  unfold mapping
  split
  · split <;> rfl
  · split
    · rfl
    · split <;> rfl
  · rfl

theorem not_union (v : V) : isUnion (nested v) = false := by
  cases v with
  | atom => rfl
  | str => rfl
  | list vs => exact not_union_collection _ _
  | set vs => exact not_union_collection _ _
  | frozen vs => exact not_union_collection _ _
  | tup vs => cases vs <;> rfl
  | dict ks vs => exact not_union_mapping _ _ _

theorem mem_nesteds {u : T} {vs : List V} (h : u ∈ nesteds vs) : ∃ v ∈ vs, u = nested v := by
  induction vs with
  | nil => simp [nesteds] at h
  | cons v vs ih =>
    rw [nesteds] at h
    rcases List.mem_cons.1 h with h | h
    · exact ⟨v, by simp, h⟩
    · obtain ⟨w, hw, e⟩ := ih h; exact ⟨w, by simp [hw], e⟩

theorem length_nesteds (vs : List V) : (nesteds vs).length = vs.length := by
  induction vs with
  | nil => rfl
  | cons v vs ih => simp [nesteds, ih]

theorem hasAll_of_each {vs : List V} {t : T} (h : HasEach vs (nesteds vs)) (he : ∀ u ∈ nesteds vs, u = t) : HasAll vs t := by
  induction vs with
  | nil => exact .nil
  | cons v vs ih =>
    rw [nesteds] at h he
    cases h with
    | cons h hs => exact .cons (he _ List.mem_cons_self ▸ h) (ih hs fun u hu => he u (by simp [hu]))

/-- What a collection is given: its bare type, or its items all have the one type. -/
theorem collection_spec (c : Cls) (vs : List V) (h : HasEach vs (nesteds vs)) :
    collection c (nesteds vs) = .con c ∨ ∃ t, collection c (nesteds vs) = .gen c [t] ∧ HasAll vs t := by
  match vs, h with
  | [], _ => exact .inl rfl
  | [v], h => exact .inr ⟨nested v, rfl, hasAll_of_each h (by simp [nesteds])⟩
  | v :: w :: vs, h =>
    simp only [nesteds, collection]
    cases hu : isUnion (reduceOr (nested v) (nested w :: nesteds vs)) with
    | true => exact .inl rfl
    | false =>
      refine .inr ⟨_, rfl, ?_⟩
      obtain ⟨h1, h2⟩ := reduceOr_not_union (not_union v) hu
      rw [h1]
      refine hasAll_of_each h ?_
      intro u hu
      rw [nesteds] at hu
      rcases List.mem_cons.1 hu with hu | hu
      · exact hu
      · exact h2 u hu

theorem isStr_eq {t : T} (h : isStr t = true) : t = .con .str := by
  unfold isStr at h
  split at h
  · rfl
  · cases h

theorem str_of_nested {v : V} (h : nested v = .con .str) : ∃ n, v = .str n := by
  cases v with
  | str n => exact ⟨n, rfl⟩
  | atom c n => simp [nested] at h
  | tup vs => cases vs <;> simp [nested] at h
  | list vs => rw [nested] at h; unfold collection at h; split at h <;> try (simp at h; done)
               split at h <;> simp at h
  | set vs => rw [nested] at h; unfold collection at h; split at h <;> try (simp at h; done)
              split at h <;> simp at h
  | frozen vs => rw [nested] at h; unfold collection at h; split at h <;> try (simp at h; done)
                 split at h <;> simp at h
  | dict ks vs =>
    rw [nested] at h
    unfold mapping at h
    split at h
    · split at h <;> simp at h
    · split at h
      · simp at h
      · split at h <;> simp at h
    · simp at h

theorem keys_str {ks : List V} (h : ∀ u ∈ nesteds ks, u = .con .str) : (ks.map keyName).map .str = ks := by
  induction ks with
  | nil => rfl
  | cons k ks ih =>
    rw [nesteds] at h
    obtain ⟨n, rfl⟩ := str_of_nested (h _ List.mem_cons_self)
    simp only [List.map_cons, keyName]
    rw [ih fun u hu => h u (by simp [hu])]

theorem has_typed {ks vs : List V} {ts : List T} (hk : ∀ u ∈ nesteds ks, u = .con .str) (h : HasEach vs ts) :
    Has (.dict ks vs) (.typed (ks.map keyName) ts) := by
  have := Has.typed (ns := ks.map keyName) h
  rwa [keys_str hk] at this

theorem mapping_spec (ks vs : List V) (hl : ks.length = vs.length) (hk : HasEach ks (nesteds ks)) (hv : HasEach vs (nesteds vs)) :
    Has (.dict ks vs) (mapping ks (nesteds ks) (nesteds vs)) := by
  match ks, vs, hl, hk, hv with
  | [], vs, _, _, _ => exact .con (.inl rfl)
  | [k], [v], _, hk, hv =>
    simp only [nesteds, mapping]
    split
    · rename_i h
      simp only [Bool.and_eq_true] at h
      exact has_typed (ks := [k]) (by intro u hu; simp [nesteds] at hu; rw [hu]; exact isStr_eq h.1) hv
    · exact .dict (hasAll_of_each hk (by simp [nesteds])) (hasAll_of_each hv (by simp [nesteds]))
  | k :: k' :: ks, v :: v' :: vs, _, hk, hv =>
    simp only [nesteds, mapping]
    split
    · rename_i h
      simp only [Bool.and_eq_true] at h
      have hs := isStr_eq h.1
      obtain ⟨h1, h2⟩ := reduceOr_not_union (ts := nested k' :: nesteds ks) (not_union k) (by rw [hs]; rfl)
      rw [h1] at hs
      refine has_typed (ks := k :: k' :: ks) ?_ hv
      intro u hu
      rw [nesteds] at hu
      rcases List.mem_cons.1 hu with hu | hu
      · rw [hu, hs]
      · rw [h2 u hu, hs]
    · split
      · exact .con (.inl rfl)
      · rename_i h
        simp only [Bool.or_eq_true, not_or, Bool.not_eq_true] at h
        obtain ⟨h1, h2⟩ := reduceOr_not_union (not_union k) h.1
        obtain ⟨h3, h4⟩ := reduceOr_not_union (not_union v) h.2
        rw [h1, h3]
        refine .dict (hasAll_of_each hk ?_) (hasAll_of_each hv ?_)
        · intro u hu
          rw [nesteds] at hu
          rcases List.mem_cons.1 hu with hu | hu
          · exact hu
          · exact h2 u hu
        · intro u hu
          rw [nesteds] at hu
          rcases List.mem_cons.1 hu with hu | hu
          · exact hu
          · exact h4 u hu

mutual

theorem sound : ∀ v, Wf v → Has v (nested v)
  | .atom c n, _ => .con rfl
  | .str n, _ => .con rfl
  | .list vs, h => by
    rw [nested]
    rcases collection_spec .mutableSequence vs (sounds vs h) with e | ⟨t, e, ht⟩ <;> rw [e]
    · exact .con rfl
    · exact .list ht
  | .set vs, h => by
    rw [nested]
    rcases collection_spec .mutableSet vs (sounds vs h) with e | ⟨t, e, ht⟩ <;> rw [e]
    · exact .con rfl
    · exact .set ht
  | .frozen vs, h => by
    rw [nested]
    rcases collection_spec .setAbc vs (sounds vs h) with e | ⟨t, e, ht⟩ <;> rw [e]
    · exact .con rfl
    · exact .frozen ht
  | .tup vs, h => by
    have := sounds vs h
    cases vs with
    | nil => exact .con rfl
    | cons v vs => exact .tup this
  | .dict ks vs, h => mapping_spec ks vs h.1 (sounds ks h.2.1) (sounds vs h.2.2)
termination_by structural v => v

theorem sounds : ∀ vs, Wfs vs → HasEach vs (nesteds vs)
  | [], _ => .nil
  | v :: vs, h => .cons (sound v h.1) (sounds vs h.2)
termination_by structural vs => vs

end

/-! ## Theorems -/

/-- Every value is of the type inferred for it. -/
theorem C67_sound (v : V) (h : Wf v) : Has v (nested v) := sound v h

/-- No union is inferred, … -/
theorem C67_no_union (v : V) (ts : List T) : nested v ≠ .union ts := by
  intro h
  have := not_union v
  rw [h] at this
  cases this

/-- … so a list has a type argument only if one type is inferred for all of its items, … -/
theorem C67_homogeneous (vs : List V) (t : T) (h : nested (.list vs) = .gen .mutableSequence [t]) :
    vs ≠ [] ∧ ∀ v ∈ vs, nested v = t := by
  rw [nested] at h
  match vs, h with
  | [v], h => simp [nesteds, collection] at h; simp [h]
  | v :: w :: vs, h =>
    refine ⟨by simp, ?_⟩
    simp only [nesteds, collection] at h
    split at h
    · cases h
    · rename_i hu
      obtain ⟨h1, h2⟩ := reduceOr_not_union (not_union v) (Bool.eq_false_iff.2 hu)
      simp only [T.gen.injEq, List.cons.injEq, true_and, and_true] at h
      have hm : ∀ x ∈ w :: vs, nested x ∈ nesteds (w :: vs) := by
        generalize w :: vs = l
        induction l with
        | nil => simp
        | cons y l ih =>
          intro x hx
          rw [nesteds]
          rcases List.mem_cons.1 hx with rfl | hx
          · simp
          · simp [ih x hx]
      intro x hx
      rcases List.mem_cons.1 hx with rfl | hx
      · rw [← h, h1]
      · rw [← h, h1]
        exact h2 _ (hm x hx)

/-- … and a non-empty list of items of one class has it. -/
theorem C67_precise (v : V) (vs : List V) (c : Cls) (h : ∀ w ∈ v :: vs, nested w = .con c) :
    nested (.list (v :: vs)) = .gen .mutableSequence [.con c] := by
  have hr : ∀ l : List V, (∀ w ∈ l, nested w = .con c) → reduceOr (.con c) (nesteds l) = .con c := by
    intro l hl
    induction l with
    | nil => rfl
    | cons w l ih =>
      rw [nesteds, reduceOr, List.foldl_cons, hl w (by simp)]
      have : or (.con c) (.con c) = .con c := by simp [or, members, elem, T.beq]
      rw [this]
      exact ih fun x hx => hl x (by simp [hx])
  cases vs with
  | nil => simp [nested, nesteds, collection, h v (by simp)]
  | cons w vs =>
    have h2 := hr (w :: vs) fun x hx => h x (by simp [hx])
    simp only [nested, nesteds, collection] at h2 ⊢
    rw [h v (by simp), h2]
    simp [isUnion]

/-- `{"a": [1, 2], "b": ("x", {3: "y"})}`. -/
def sample : V := .dict [.str 0, .str 1] [.list [.atom 5 1, .atom 5 2], .tup [.str 7, .dict [.atom 5 3] [.str 8]]]

example : Wf sample := by simp [sample, Wf, Wfs]
example : nested sample = .typed [0, 1] [.gen .mutableSequence [.con (.other 5)],
    .gen .tuple [.con .str, .gen .mutableMapping [.con (.other 5), .con .str]]] := rfl
example : nested (.list [.atom 5 1, .atom 6 1]) = .con .mutableSequence := rfl

/-- Typed dicts inferred for two values with the same keys and types are different: no argument is inferred for a list of
them. -/
theorem C67_typed_lost : ∃ v : V, Wf v ∧ (∃ ks ts, nested v = .typed ks ts) ∧ nested (.list [v, v]) = .con .mutableSequence :=
  ⟨.dict [.str 0, .str 1] [.atom 5 1, .str 3], by simp [Wf, Wfs], ⟨_, _, rfl⟩, rfl⟩

end Verif.Nested
