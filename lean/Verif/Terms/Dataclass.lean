/-!
# C73: terms of dataclass type

Model of the dispatch in `defdata` (`ops/syntax.py` 429-549, `apply_cast` 511-515), of `__dispatch_defdata_object` 570-578,
`_construct_dataclass_term` 552-567 and of `_DataclassTermMeta` 614-659: the first term of a dataclass makes a class of terms
for it and registers this class; fields of terms are operations (628-642).

* Classes are numbers; the order of resolution and the fields of each class are given. `functools.singledispatch` takes the
  first class in the order of resolution that is registered.
* Registered are, at first, the classes with their own kind of terms (`builtin`: numbers, callables, iterables ...); for all
  other classes there is the rule for `object`.
-/

namespace Verif.Dataclass

structure Classes where
  /-- The order of resolution, starting with the class itself. -/
  mro : Nat → List Nat
  data : Nat → Bool
  /-- `dataclasses.fields`, inherited ones included. -/
  fields : Nat → List String
  builtin : Nat → Bool

/-- The class of a term: that made for a dataclass, one of the kinds for builtin classes, or `_BaseTerm`. -/
inductive TermClass where
  | data (c : Nat)
  | builtin (c : Nat)
  | base
deriving DecidableEq

/-- `__dispatch(c)`: the first class registered. -/
def dispatch (C : Classes) (reg : List Nat) (c : Nat) : Option Nat :=
  (C.mro c).find? fun x => reg.contains x || C.builtin x

/-- The class of the term made for an operation that returns a `c`, and the classes registered afterwards. -/
def construct (C : Classes) (reg : List Nat) (c : Nat) : TermClass × List Nat :=
  match dispatch C reg c with
  | some x => if reg.contains x then (.data x, reg) else (.builtin x, reg)
  | none => if C.data c then (.data c, c :: reg) else (.base, reg)

/-- The dataclasses registered after making terms for a sequence of classes. -/
def history (C : Classes) : List Nat → List Nat → List Nat
  | reg, [] => reg
  | reg, c :: cs => history C (construct C reg c).2 cs

/-! ## What is stated -/

/-- The term is an instance of the class, and has its fields. -/
def IsTermOf (C : Classes) (c : Nat) : TermClass → Prop
  | .data d => c ∈ C.mro d ∧ ∀ f ∈ C.fields c, f ∈ C.fields d
  | _ => False

/-- Python's classes: a class comes first in its order of resolution, that of a base contains that of the base's bases, no
class is a proper base of its bases. -/
structure Classes.Wf (C : Classes) : Prop where
  self : ∀ c, ∃ r, C.mro c = c :: r
  trans : ∀ a b x, a ∈ C.mro b → x ∈ C.mro a → x ∈ C.mro b
  antisymm : ∀ a b, a ∈ C.mro b → b ∈ C.mro a → a = b

/-! ## Proofs -/

theorem dispatch_some {C : Classes} {reg : List Nat} {c x : Nat} (h : dispatch C reg c = some x) :
    x ∈ C.mro c ∧ (x ∈ reg ∨ C.builtin x = true) := by
  have h1 := List.find?_some h
  have h2 := List.mem_of_find?_eq_some h
  simp only [Bool.or_eq_true, List.contains_iff_mem] at h1
  exact ⟨h2, h1⟩

theorem construct_mono (C : Classes) (reg : List Nat) (c x : Nat) (h : x ∈ reg) : x ∈ (construct C reg c).2 := by
  unfold construct
  split
  · split <;> exact h
  · split
    · exact List.mem_cons_of_mem _ h
    · exact h

theorem history_mono (C : Classes) : ∀ (cs reg : List Nat) (x : Nat), x ∈ reg → x ∈ history C reg cs
  | [], _, _, h => h
  | c :: cs, reg, x, h => history_mono C cs _ x (construct_mono C reg c x h)

theorem construct_mem {C : Classes} {reg : List Nat} {c x : Nat} (h : x ∈ (construct C reg c).2) : x ∈ reg ∨ x = c := by
  unfold construct at h
  split at h
  · split at h <;> exact Or.inl h
  · split at h
    · exact (List.mem_cons.1 h).symm
    · exact Or.inl h

theorem history_mem (C : Classes) : ∀ (cs reg : List Nat) (x : Nat), x ∈ history C reg cs → x ∈ reg ∨ x ∈ cs
  | [], _, _, h => Or.inl h
  | c :: cs, reg, x, h => by
    rcases history_mem C cs _ x h with h | h
    · rcases construct_mem h with h | rfl
      · exact Or.inl h
      · exact Or.inr List.mem_cons_self
    · exact Or.inr (List.mem_cons_of_mem _ h)

theorem history_append (C : Classes) : ∀ (cs ds reg : List Nat), history C reg (cs ++ ds) = history C (history C reg cs) ds
  | [], _, _ => rfl
  | _ :: cs, ds, _ => history_append C cs ds _

/-- **C73.** If no term was made before for a proper base of a dataclass, its terms are instances of it and have its fields. -/
theorem C73_instance_partial (C : Classes) (hC : C.Wf) (cs : List Nat) (c : Nat) (hd : C.data c = true)
    (hb : ∀ x ∈ C.mro c, C.builtin x = false) (hp : ∀ x ∈ cs, x ∈ C.mro c → x = c) :
    IsTermOf C c (construct C (history C [] cs) c).1 := by
  have hself : c ∈ C.mro c := by
    obtain ⟨r, h⟩ := hC.self c
    rw [h]
    exact List.mem_cons_self
  have hres : (construct C (history C [] cs) c).1 = .data c := by
    unfold construct
    cases h : dispatch C (history C [] cs) c with
    | none => simp [hd]
    | some x =>
      obtain ⟨h1, h2⟩ := dispatch_some h
      rcases h2 with h2 | h2
      · have hx : x = c := by
          rcases history_mem C cs [] x h2 with h3 | h3
          · simp at h3
          · exact hp x h3 h1
        subst hx
        have : (history C [] cs).contains x = true := by simpa using h2
        simp only [this, if_true]
      · rw [hb x h1] at h2
        cases h2
  rw [hres]
  exact ⟨hself, fun f hf => hf⟩

/-- **C73.** After the first, all terms of a class are of the same class of terms. -/
theorem C73_stable (C : Classes) (hC : C.Wf) (cs ds : List Nat) (c : Nat)
    (h : (construct C (history C [] cs) c).1 = .data c) :
    (construct C (history C [] (cs ++ c :: ds)) c).1 = .data c := by
  have hmem : c ∈ (construct C (history C [] cs) c).2 := by
    unfold construct at h ⊢
    cases hd : dispatch C (history C [] cs) c with
    | some x =>
      simp only [hd] at h ⊢
      split at h
      · next hc =>
        cases h
        simp only [hc, if_true]
        simpa using hc
      · cases h
    | none =>
      simp only [hd] at h ⊢
      split at h
      · next hc => simp only [hc, if_true]; exact List.mem_cons_self
      · cases h
  rw [history_append]
  have hm : c ∈ history C (history C [] cs) (c :: ds) := history_mono C ds _ c hmem
  have hdisp : dispatch C (history C (history C [] cs) (c :: ds)) c = some c := by
    obtain ⟨r, hr⟩ := hC.self c
    unfold dispatch
    rw [hr, List.find?_cons]
    have : (history C (history C [] cs) (c :: ds)).contains c = true := by simpa using hm
    simp only [this, Bool.true_or]
  have hc : (history C (history C [] cs) (c :: ds)).contains c = true := by simpa using hm
  unfold construct
  simp only [hdisp, hc, if_true]

/-- **C73, negation.** Once a term was made for a dataclass, no term made for a subclass of it, without one made before, is
an instance of the subclass. -/
theorem C73_subclass_fails (C : Classes) (hC : C.Wf) (cs ds : List Nat) (a b : Nat) (hd : C.data a = true)
    (hab : a ∈ C.mro b) (hne : a ≠ b) (hb : ∀ x ∈ C.mro b, C.builtin x = false) (hn : b ∉ cs) :
    ¬ IsTermOf C b (construct C (history C [] (cs ++ a :: ds)) b).1 := by
  -- a proper base of `b` is registered once the term for `a` is made
  have hbase : ∃ x, x ∈ C.mro a ∧ x ∈ (construct C (history C [] cs) a).2 := by
    unfold construct
    cases h : dispatch C (history C [] cs) a with
    | none =>
      simp only [hd, if_true]
      obtain ⟨r, hr⟩ := hC.self a
      exact ⟨a, by rw [hr]; exact List.mem_cons_self, List.mem_cons_self⟩
    | some x =>
      obtain ⟨h1, h2⟩ := dispatch_some h
      have hx : x ∈ history C [] cs := by
        rcases h2 with h2 | h2
        · exact h2
        · rw [hb x (hC.trans a b x hab h1)] at h2
          cases h2
      have hc : (history C [] cs).contains x = true := by simpa using hx
      simp only [hc, if_true]
      exact ⟨x, h1, hx⟩
  obtain ⟨x, hx1, hx2⟩ := hbase
  have hxb : x ∈ C.mro b := hC.trans a b x hab hx1
  -- `b` is never registered
  have hnot : ∀ (es reg : List Nat), x ∈ reg → b ∉ reg → b ∉ history C reg es := by
    intro es
    induction es with
    | nil => intro reg _ h; exact h
    | cons e es ih =>
      intro reg hx hbr
      apply ih
      · exact construct_mono C reg e x hx
      · intro hmem
        rcases construct_mem hmem with h | rfl
        · exact hbr h
        · unfold construct at hmem
          cases hdp : dispatch C reg b with
          | some y =>
            simp only [hdp] at hmem
            split at hmem <;> exact hbr hmem
          | none =>
            unfold dispatch at hdp
            rw [List.find?_eq_none] at hdp
            have := hdp x hxb
            simp [hx] at this
  have hb0 : b ∉ (construct C (history C [] cs) a).2 := by
    intro h
    rcases construct_mem h with h | h
    · rcases history_mem C cs [] b h with h | h
      · simp at h
      · exact hn h
    · exact hne h.symm
  rw [history_append]
  have hb1 : b ∉ history C (history C [] cs) (a :: ds) := hnot ds _ hx2 hb0
  have hx3 : x ∈ history C (history C [] cs) (a :: ds) := history_mono C ds _ x hx2
  generalize history C (history C [] cs) (a :: ds) = reg at hb1 hx3
  unfold construct
  cases hdp : dispatch C reg b with
  | none =>
    unfold dispatch at hdp
    rw [List.find?_eq_none] at hdp
    have := hdp x hxb
    simp [hx3] at this
  | some y =>
    obtain ⟨h1, h2⟩ := dispatch_some hdp
    have hy : y ∈ reg := by
      rcases h2 with h2 | h2
      · exact h2
      · rw [hb y h1] at h2
        cases h2
    have hc : reg.contains y = true := by simpa using hy
    simp only [hc, if_true]
    rintro ⟨h3, _⟩
    have := hC.antisymm y b h1 h3
    subst this
    exact hb1 hy

/-- **C73, negation.** A dataclass that is also, for example, callable or iterable gets the terms of these, without fields. -/
theorem C73_builtin_fails (C : Classes) (reg : List Nat) (c x : Nat) (hx : x ∈ C.mro c) (hb : C.builtin x = true)
    (hr : ∀ y ∈ C.mro c, y ∉ reg) : ¬ IsTermOf C c (construct C reg c).1 := by
  unfold construct
  cases h : dispatch C reg c with
  | none =>
    unfold dispatch at h
    rw [List.find?_eq_none] at h
    have := h x hx
    simp [hb] at this
  | some y =>
    obtain ⟨h1, _⟩ := dispatch_some h
    have : reg.contains y = false := by simpa using hr y h1
    simp only [this, Bool.false_eq_true, if_false, IsTermOf, not_false_eq_true]

/-! ## Fields -/

/-- An instance of a dataclass: its dictionary (`none` with `slots=True`), its slots, and the attributes of its class. -/
structure Inst where
  dict : Option (List (String × Nat))
  slots : List (String × Nat)
  cls : List (String × Nat)

/-- What a field operation is applied to, once evaluated. -/
inductive Val where
  | term (t : Nat)
  | inst (i : Inst)

/-- The field of a term stays a term. -/
inductive Field where
  | value (v : Nat)
  | term (t : Nat) (f : String)
  | attributeError
  | keyError
deriving DecidableEq

/-- The default rule of the field operation (633-636). -/
def getter (f : String) : Val → Field
  | .term t => .term t f
  | .inst i =>
    match i.dict with
    | none => .attributeError
    | some d =>
      match d.lookup f with
      | none => .keyError
      | some v => .value v

/-- `v.f` in Python: from the dictionary, the slots or the class. -/
def attr (f : String) (i : Inst) : Option Nat :=
  match (i.dict.getD []).lookup f with
  | some v => some v
  | none =>
    match i.slots.lookup f with
    | some v => some v
    | none => i.cls.lookup f

/-- **C73.** The field of an instance that has it in its dictionary. -/
theorem C73_field_partial (f : String) (i : Inst) (d : List (String × Nat)) (v : Nat) (hd : i.dict = some d)
    (hv : d.lookup f = some v) : getter f (.inst i) = .value v ∧ attr f i = some v := by
  simp [getter, attr, hd, hv]

/-- **C73.** The field of a term is a term for this field of it; different terms and fields have different ones. -/
theorem C73_term_field (f g : String) (t u : Nat) : (∃ t' f', getter f (.term t) = .term t' f') ∧
    (getter f (.term t) = getter g (.term u) ↔ t = u ∧ f = g) :=
  ⟨⟨t, f, rfl⟩, by simp [getter]⟩

/-- **C73, negation.** The field of an instance of a dataclass with slots raises. -/
theorem C73_slots_fails (f : String) (i : Inst) (v : Nat) (hd : i.dict = none) (hv : i.slots.lookup f = some v) :
    attr f i = some v ∧ getter f (.inst i) = .attributeError := by
  simp [getter, attr, hd, hv]

/-- **C73, negation.** A field that is not an argument of the class and has a default (`field(init=False, default=...)`) is an
attribute of the class: reading it raises. -/
theorem C73_class_default_fails (f : String) (i : Inst) (d : List (String × Nat)) (v : Nat) (hd : i.dict = some d)
    (hn : d.lookup f = none) (hs : i.slots = []) (hv : i.cls.lookup f = some v) :
    attr f i = some v ∧ getter f (.inst i) = .keyError := by
  simp [getter, attr, hd, hn, hs, hv]

/-! ## Examples -/

/-- Class 1 with field `x`; class 2 derived from it with a field `y` more; both dataclasses. -/
def two : Classes where
  mro
    | 1 => [1, 0]
    | 2 => [2, 1, 0]
    | n => [n]
  data n := n == 1 || n == 2
  fields
    | 1 => ["x"]
    | 2 => ["x", "y"]
    | _ => []
  builtin _ := false

theorem two_wf : two.Wf where
  self := by
    intro c
    simp only [two]
    split <;> exact ⟨_, rfl⟩
  trans := by
    intro a b x
    simp only [two]
    grind
  antisymm := by
    intro a b
    simp only [two]
    split <;> split <;> simp <;> omega

example : (construct two (history two [] []) 2).1 = .data 2 := rfl

/-- The base first: the term of the subclass is a term of the base, without the field `y`. -/
example : (construct two (history two [] [1]) 2).1 = .data 1 ∧ "y" ∈ two.fields 2 ∧ "y" ∉ two.fields 1 := by decide

/-- The subclass first: both are right. -/
example : (construct two (history two [] [2]) 1).1 = .data 1 ∧ (construct two (history two [] [2, 1]) 2).1 = .data 2 := by
  decide

end Verif.Dataclass
