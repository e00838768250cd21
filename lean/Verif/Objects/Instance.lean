import Verif.Objects.Str

/-!
# Operations as methods

Model of `Operation.__set_name__`, `Operation.__get__` (`ops/types.py` 459-505) and of
`_ClassMethodOpDescriptor` (45-61). Text is a list of code points.
-/

namespace Verif.Objects.Method

open Verif.Objects (txt)

/-- An operation that is an attribute of a class. `key` is `_name_on_instance`, if `__set_name__` has
set it. -/
structure Desc where
  id : Nat
  key : Option (List Nat)
  deriving DecidableEq, Repr

/-- `f"{INSTANCE_OP_PREFIX}_{owner.__name__}_{name}"` (459-464). -/
def instanceKey (owner name : List Nat) : List Nat :=
  txt "__instanceop" ++ txt "_" ++ owner ++ txt "_" ++ name

/-- `__set_name__` (459-464), if the assertion holds: classes of terms are left alone. -/
def setName (d : Desc) (ownerIsTerm : Bool) (owner name : List Nat) : Desc :=
  if ownerIsTerm then d else { d with key := some (instanceKey owner name) }

/-- `__set_name__` with its assertion (461) that it is called once: `none` if it fails. -/
def setNameOnce (d : Desc) (ownerIsTerm : Bool) (owner name : List Nat) : Option Desc :=
  if !ownerIsTerm && d.key.isSome then none else some (setName d ownerIsTerm owner name)

/-- An instance: whether it has a `__dict__`, the operations in it, and whether `evaluate` makes a new instance
in its place: it does for dataclasses (`ops/semantics.py` 154-166, `dataclasses.replace`) and for classes of
sequences and mappings (194-215), not for other classes. -/
structure Inst where
  hasDict : Bool
  dict : List (List Nat × Nat)
  rebuilt : Bool
  deriving DecidableEq, Repr

/-- Instances and instance operations, numbered in order of creation. An instance operation is the
class operation it wraps and the instance it is bound to. -/
structure State where
  insts : List Inst
  iops : List (Desc × Nat)
  deriving DecidableEq, Repr

/-- What an attribute access yields: an instance operation, or the class operation as a bound
method. -/
inductive Attr where
  | iop (o : Nat)
  | method (d : Desc) (i : Nat)
  deriving DecidableEq, Repr

/-- `instance.attr` for the `i`-th instance: `Operation.__get__` (466-505). The flag says whether the
instance is a term or contains free variables (`isinstance(instance, Term) or fvsof(instance)`). -/
def get (s : State) (d : Desc) (i : Nat) (isTerm : Bool) : Attr × State :=
  match s.insts[i]? with
  | none => (.method d i, s)
  | some inst =>
    if inst.hasDict then
      match d.key with
      | none => (.method d i, s)
      | some k =>
        match inst.dict.lookup k with
        | some o => (.iop o, s)
        | none =>
          if isTerm then (.method d i, s)
          else
            let o := s.iops.length
            (.iop o, { insts := s.insts.set i { inst with dict := (k, o) :: inst.dict }
                       iops := s.iops ++ [(d, i)] })
    else (.method d i, s)

/-- What programs do with instances. `copy.copy` copies the instance's `__dict__`. -/
inductive Event where
  | new (hasDict : Bool) (rebuilt : Bool := false)
  | copy (i : Nat)
  | access (d : Desc) (i : Nat) (isTerm : Bool)
  deriving Repr

def step (s : State) : Event → State
  | .new b r => { s with insts := s.insts ++ [⟨b, [], r⟩] }
  | .copy i =>
    match s.insts[i]? with
    | some inst => { s with insts := s.insts ++ [inst] }
    | none => s
  | .access d i t => (get s d i t).2

def run (s : State) (es : List Event) : State := es.foldl step s

def State.empty : State := ⟨[], []⟩

/-! ## Class methods -/

/-- A class method operation: `_name_on_owner` is made of the attribute name. -/
structure CDesc where
  id : Nat
  name : List Nat
  deriving DecidableEq, Repr

def ownerKey (name : List Nat) : List Nat := txt "_descriptorop_" ++ name

/-- `_ClassMethodOpDescriptor.__get__` (54-61) for the class `c`: `State.insts` are the classes here,
with the operations in their own `__dict__`. -/
def getClass (s : State) (d : CDesc) (c : Nat) : Attr × State :=
  match s.insts[c]? with
  | none => (.method ⟨d.id, some (ownerKey d.name)⟩ c, s)
  | some cls =>
    match cls.dict.lookup (ownerKey d.name) with
    | some o => (.iop o, s)
    | none =>
      let o := s.iops.length
      (.iop o, { insts := s.insts.set c { cls with dict := (ownerKey d.name, o) :: cls.dict }
                 iops := s.iops ++ [(⟨d.id, some (ownerKey d.name)⟩, c)] })

theorem getClass_eq (s : State) (d : CDesc) (c : Nat)
    (h : ∀ cls, s.insts[c]? = some cls → cls.hasDict = true) :
    getClass s d c = get s ⟨d.id, some (ownerKey d.name)⟩ c false := by
  unfold getClass get
  cases hc : s.insts[c]? with
  | none => rfl
  | some cls =>
    simp only [h cls hc, if_true, Bool.false_eq_true, if_false]

/-! ## Facts about histories -/

/-- The operation cached for a key on an instance. -/
def cached (s : State) (i : Nat) (k : List Nat) : Option Nat :=
  (s.insts[i]?).bind (fun inst => inst.dict.lookup k)

theorem get_cached (s : State) (d : Desc) (i : Nat) (t : Bool) (o : Nat)
    (h : (get s d i t).1 = .iop o) :
    ∃ k inst, d.key = some k ∧ s.insts[i]? = some inst ∧ inst.hasDict = true ∧
      cached (get s d i t).2 i k = some o := by
  unfold get at h ⊢
  cases hi : s.insts[i]? with
  | none => rw [hi] at h; simp at h
  | some inst =>
    rw [hi] at h
    simp only at h ⊢
    cases hd : inst.hasDict with
    | false => rw [hd] at h; simp at h
    | true =>
      rw [hd] at h
      simp only [if_true] at h ⊢
      cases hk : d.key with
      | none => rw [hk] at h; simp at h
      | some k =>
        rw [hk] at h
        simp only at h ⊢
        refine ⟨k, inst, rfl, rfl, hd, ?_⟩
        cases hl : inst.dict.lookup k with
        | some o' =>
          rw [hl] at h
          simp only [Attr.iop.injEq] at h
          simp [cached, hi, hl, h]
        | none =>
          rw [hl] at h
          simp only at h ⊢
          cases t with
          | true => simp at h
          | false =>
            simp only [Bool.false_eq_true, if_false, Attr.iop.injEq] at h ⊢
            have hlt : i < s.insts.length := (List.getElem?_eq_some_iff.1 hi).1
            simp [cached, hlt, h, List.lookup]

/-- Accesses keep instances and cached operations. -/
theorem get_keeps (s : State) (d : Desc) (i : Nat) (t : Bool) (j : Nat) (inst : Inst)
    (hj : s.insts[j]? = some inst) :
    ∃ inst', (get s d i t).2.insts[j]? = some inst' ∧ inst'.hasDict = inst.hasDict ∧
      ∀ k o, inst.dict.lookup k = some o → inst'.dict.lookup k = some o := by
  have same : ∃ inst', s.insts[j]? = some inst' ∧ inst'.hasDict = inst.hasDict ∧
      ∀ k o, inst.dict.lookup k = some o → inst'.dict.lookup k = some o :=
    ⟨inst, hj, rfl, fun _ _ h => h⟩
  unfold get
  split
  · exact same
  · rename_i ii hi
    split
    · split
      · exact same
      · rename_i k hk
        split
        · exact same
        · rename_i hl
          split
          · exact same
          · by_cases e : i = j
            · subst e
              rw [hi] at hj
              obtain rfl := Option.some.inj hj
              have hlt : i < s.insts.length := (List.getElem?_eq_some_iff.1 hi).1
              refine ⟨{ ii with dict := (k, s.iops.length) :: ii.dict }, by simp [hlt], rfl, ?_⟩
              intro k' o' h'
              by_cases ek : k' = k
              · rw [ek, hl] at h'; cases h'
              · simp [List.lookup, beq_eq_false_iff_ne.2 ek, h']
            · exact ⟨inst, by simp [List.getElem?_set_ne e, hj], rfl, fun _ _ h => h⟩
    · exact same

theorem step_keeps (s : State) (e : Event) (j : Nat) (inst : Inst)
    (hj : s.insts[j]? = some inst) :
    ∃ inst', (step s e).insts[j]? = some inst' ∧ inst'.hasDict = inst.hasDict ∧
      ∀ k o, inst.dict.lookup k = some o → inst'.dict.lookup k = some o := by
  have hlt : j < s.insts.length := (List.getElem?_eq_some_iff.1 hj).1
  cases e with
  | new b r =>
    exact ⟨inst, by simp only [step]; rw [List.getElem?_append_left hlt, hj], rfl, fun _ _ h => h⟩
  | copy i =>
    simp only [step]
    split
    · exact ⟨inst, by rw [List.getElem?_append_left hlt, hj], rfl, fun _ _ h => h⟩
    · exact ⟨inst, hj, rfl, fun _ _ h => h⟩
  | access d i t => exact get_keeps s d i t j inst hj

theorem run_keeps (s : State) (es : List Event) (j : Nat) (inst : Inst)
    (hj : s.insts[j]? = some inst) :
    ∃ inst', (run s es).insts[j]? = some inst' ∧ inst'.hasDict = inst.hasDict ∧
      ∀ k o, inst.dict.lookup k = some o → inst'.dict.lookup k = some o := by
  induction es generalizing s inst with
  | nil => exact ⟨inst, hj, rfl, fun _ _ h => h⟩
  | cons e es ih =>
    obtain ⟨i1, h1, h2, h3⟩ := step_keeps s e j inst hj
    obtain ⟨i2, h4, h5, h6⟩ := ih (step s e) i1 h1
    exact ⟨i2, h4, h5.trans h2, fun k o h => h6 k o (h3 k o h)⟩

/-! ## C26 -/

/-- C26: if accessing a method operation on an instance has yielded an operation, then every later
access yields the same operation, whatever happens in between. -/
theorem C26_stable (s : State) (d : Desc) (i : Nat) (t t' : Bool) (es : List Event) (o : Nat)
    (h : (get s d i t).1 = .iop o) :
    (get (run (get s d i t).2 es) d i t').1 = .iop o := by
  obtain ⟨k, inst, hk, hi, hd, hc⟩ := get_cached s d i t o h
  obtain ⟨i1, h1, h2, _⟩ := get_keeps s d i t i inst hi
  obtain ⟨i2, h4, h5, h6⟩ := run_keeps (get s d i t).2 es i i1 h1
  have hl : i1.dict.lookup k = some o := by simpa [cached, h1] using hc
  have hl2 := h6 k o hl
  have hd2 : i2.hasDict = true := by rw [h5, h2, hd]
  generalize run (get s d i t).2 es = s2 at h4 ⊢
  simp only [get, h4, hd2, if_true, hk, hl2]

/-- Nothing is copied in a history. -/
def NoCopy (es : List Event) : Prop := ∀ e ∈ es, ∀ i, e ≠ .copy i

/-- Without copies, each cached operation was made for this instance and a class operation with this
key. -/
def Bound (s : State) : Prop :=
  ∀ (i : Nat) (k : List Nat) (o : Nat), cached s i k = some o →
    ∃ d : Desc, s.iops[o]? = some (d, i) ∧ d.key = some k

theorem get_bound (s : State) (d : Desc) (i : Nat) (t : Bool) (h : Bound s) :
    Bound (get s d i t).2 := by
  unfold get
  split
  · exact h
  · rename_i ii hi
    split
    · split
      · exact h
      · rename_i k hk
        split
        · exact h
        · rename_i hl
          split
          · exact h
          · intro j k' o' hc
            have hlt : i < s.insts.length := (List.getElem?_eq_some_iff.1 hi).1
            simp only [cached] at hc
            have old : ∀ o, cached s j k' = some o → ∃ d' : Desc,
                (s.iops ++ [(d, i)])[o]? = some (d', j) ∧ d'.key = some k' := by
              intro o ho
              obtain ⟨d', h1, h2⟩ := h j k' o ho
              have : o < s.iops.length := (List.getElem?_eq_some_iff.1 h1).1
              exact ⟨d', by rw [List.getElem?_append_left this, h1], h2⟩
            by_cases e : i = j
            · subst e
              simp only [List.getElem?_set_self hlt, Option.bind_some, List.lookup] at hc
              by_cases ek : k' = k
              · subst ek
                simp only [BEq.rfl, Option.some.injEq] at hc
                subst hc
                exact ⟨d, by simp, hk⟩
              · simp only [beq_eq_false_iff_ne.2 ek] at hc
                exact old o' (by simp [cached, hi, hc])
            · rw [List.getElem?_set_ne e] at hc
              exact old o' hc
    · exact h

theorem run_bound (s : State) (es : List Event) (hn : NoCopy es) (h : Bound s) :
    Bound (run s es) := by
  induction es generalizing s with
  | nil => exact h
  | cons e es ih =>
    refine ih (step s e) (fun e' he => hn e' (List.mem_cons_of_mem _ he)) ?_
    cases e with
    | new b r =>
      intro i k o hc
      simp only [cached, step] at hc
      by_cases hlt : i < s.insts.length
      · rw [List.getElem?_append_left hlt] at hc
        exact h i k o hc
      · rw [List.getElem?_append_right (by omega)] at hc
        cases hx : i - s.insts.length with
        | zero => rw [hx] at hc; simp at hc
        | succ n => rw [hx] at hc; simp at hc
    | copy i => exact absurd rfl (hn _ List.mem_cons_self i)
    | access d i t => exact get_bound s d i t h

/-- C26: without copies of instances, an operation obtained from an instance was made for this
instance and for a class operation with the same key. -/
theorem C26_bound_partial (es : List Event) (hn : NoCopy es) (d : Desc) (i : Nat) (t : Bool)
    (o : Nat) (h : (get (run .empty es) d i t).1 = .iop o) :
    ∃ d' : Desc, (get (run .empty es) d i t).2.iops[o]? = some (d', i) ∧ d'.key = d.key := by
  have hb : Bound (run .empty es) := run_bound _ es hn (by intro i k o hc; simp [cached, State.empty] at hc)
  obtain ⟨k, inst, hk, _, _, hc⟩ := get_cached _ d i t o h
  obtain ⟨d', h1, h2⟩ := get_bound _ d i t hb i k o hc
  exact ⟨d', h1, by rw [h2, hk]⟩

/-- C26: without copies, accesses on different instances, or of class operations with different keys,
yield different operations, at any two moments of a history. -/
theorem C26_distinct_partial (es es' : List Event) (hn : NoCopy es) (hn' : NoCopy es')
    (d d' : Desc) (i i' : Nat) (t t' : Bool) (o o' : Nat)
    (h : (get (run .empty es) d i t).1 = .iop o)
    (h' : (get (run (get (run .empty es) d i t).2 es') d' i' t').1 = .iop o')
    (hne : i ≠ i' ∨ d.key ≠ d'.key) : o ≠ o' := by
  rintro rfl
  have hb : Bound (run .empty es) :=
    run_bound _ es hn (by intro i k o hc; simp [cached, State.empty] at hc)
  have hb1 := get_bound _ d i t hb
  have hb2 := run_bound _ es' hn' hb1
  obtain ⟨k, inst, hk, hi, _, hc⟩ := get_cached _ d i t o h
  obtain ⟨k', inst', hk', hi', _, hc'⟩ := get_cached _ d' i' t' o h'
  obtain ⟨i1, h1, _, h2⟩ := get_keeps _ d i t i inst hi
  obtain ⟨i2, h3, _, h4⟩ := run_keeps _ es' i i1 h1
  obtain ⟨i3, h5, _, h6⟩ := get_keeps _ d' i' t' i i2 h3
  have hc2 : cached (get (run (get (run .empty es) d i t).2 es') d' i' t').2 i k = some o := by
    have : i1.dict.lookup k = some o := by simpa [cached, h1] using hc
    simp [cached, h5, h6 k o (h4 k o this)]
  have hb3 := get_bound _ d' i' t' hb2
  obtain ⟨e1, g1, g2⟩ := hb3 i k o hc2
  obtain ⟨e2, g3, g4⟩ := hb3 i' k' o hc'
  rw [g1] at g3
  obtain ⟨rfl, rfl⟩ := Prod.mk.inj (Option.some.inj g3)
  rcases hne with hne | hne
  · exact hne rfl
  · exact hne (by rw [hk, hk', ← g2, g4])

/-- C26: keys are different for different attribute names of one class, and for different classes whose
names contain no underscore. -/
theorem C26_keys_partial (owner owner' name name' : List Nat)
    (h : owner = owner' ∨ (95 ∉ owner ∧ 95 ∉ owner'))
    (e : instanceKey owner name = instanceKey owner' name') : owner = owner' ∧ name = name' := by
  have hu : txt "_" = [95] := by decide
  simp only [instanceKey, hu, List.append_assoc, List.append_cancel_left_eq, List.cons_append,
    List.nil_append, List.cons.injEq, true_and] at e
  rcases h with rfl | ⟨ha, hb⟩
  · simpa using e
  · have key : ∀ (a b x y : List Nat), 95 ∉ a → 95 ∉ b → a ++ 95 :: x = b ++ 95 :: y →
        a = b ∧ x = y := by
      intro a
      induction a with
      | nil =>
        intro b x y _ hb e
        cases b with
        | nil => simpa using e
        | cons c b => simp at e; simp [e.1] at hb
      | cons c a ih =>
        intro b x y ha hb e
        cases b with
        | nil => simp at e; simp [e.1] at ha
        | cons d b =>
          simp only [List.cons_append, List.cons.injEq] at e
          simp only [List.mem_cons, not_or] at ha hb
          obtain ⟨h1, h2⟩ := ih b x y ha.2 hb.2 e.2
          exact ⟨by rw [e.1, h1], h2⟩
    exact key owner owner' name name' ha hb e

/-! ### Examples and counterexamples -/

/-- `class A: f = …` and two instances. -/
def dA : Desc := setName ⟨100, none⟩ false (txt "A") (txt "f")

example : (get (run .empty [.new true, .new true]) dA 0 false).1 = .iop 0 ∧
    (get (run .empty [.new true, .new true, .access dA 0 false]) dA 1 false).1 = .iop 1 ∧
    (get (run .empty [.new true, .new true, .access dA 0 false, .access dA 1 false]) dA 0 false).1 =
      .iop 0 := by decide

/-- C26 fails: a copy of an instance has the operation of the original, bound to the original. -/
theorem C26_copy_fails :
    ∃ (es : List Event) (d : Desc) (i j o : Nat), i ≠ j ∧
      (get (run .empty es) d i false).1 = .iop o ∧ (get (run .empty es) d j false).1 = .iop o ∧
      (run .empty es).iops[o]? = some (d, i) :=
  ⟨[.new true, .access dA 0 false, .copy 0], dA, 0, 1, 0, by decide, by decide, by decide,
    by decide⟩

/-- C26 fails: class `A` with operation `b_c` and its subclass `A_b` with operation `c` use the same
key; on an instance of `A_b` both attributes yield the same operation. -/
theorem C26_underscore_fails :
    ∃ (d d' : Desc) (o : Nat), d.id ≠ d'.id ∧
      d = setName ⟨1, none⟩ false (txt "A") (txt "b_c") ∧
      d' = setName ⟨2, none⟩ false (txt "A_b") (txt "c") ∧
      (get (run .empty [.new true]) d 0 false).1 = .iop o ∧
      (get (run .empty [.new true, .access d 0 false]) d' 0 false).1 = .iop o :=
  ⟨_, _, 0, by decide, rfl, rfl, by decide, by decide⟩

/-- C26 fails: a class and its base class with the same `__name__`: `super().f` on an instance is the
operation of the subclass once that has been accessed. -/
theorem C26_same_class_name_fails :
    ∃ (d d' : Desc) (o : Nat), d.id ≠ d'.id ∧
      d = setName ⟨1, none⟩ false (txt "A") (txt "f") ∧
      d' = setName ⟨2, none⟩ false (txt "A") (txt "f") ∧
      (get (run .empty [.new true]) d 0 false).1 = .iop o ∧
      (get (run .empty [.new true, .access d 0 false]) d' 0 false).1 = .iop o :=
  ⟨_, _, 0, by decide, rfl, rfl, by decide, by decide⟩

/-- What programs do with classes: create them and access class method operations. -/
inductive CEvent where
  | new
  | access (d : CDesc) (c : Nat)

def stepClass (s : State) : CEvent → State
  | .new => { s with insts := s.insts ++ [⟨true, [], false⟩] }
  | .access d c => (getClass s d c).2

def runClass (s : State) (es : List CEvent) : State := es.foldl stepClass s

/-- A class method operation seen as an operation on classes. -/
def CDesc.desc (d : CDesc) : Desc := ⟨d.id, some (ownerKey d.name)⟩

def CEvent.event : CEvent → Event
  | .new => .new true
  | .access d c => .access d.desc c false

def AllDict (s : State) : Prop := ∀ (c : Nat) (cls : Inst), s.insts[c]? = some cls → cls.hasDict = true

theorem get_allDict (s : State) (d : Desc) (i : Nat) (t : Bool) (h : AllDict s) :
    AllDict (get s d i t).2 := by
  unfold get
  split
  · exact h
  · rename_i ii hi
    split
    · split
      · exact h
      · split
        · exact h
        · split
          · exact h
          · intro j cls hc
            by_cases e : i = j
            · subst e
              have hlt : i < s.insts.length := (List.getElem?_eq_some_iff.1 hi).1
              simp only [List.getElem?_set_self hlt, Option.some.injEq] at hc
              rw [← hc]; exact h i ii hi
            · simp only [List.getElem?_set_ne e] at hc
              exact h j cls hc
    · exact h

theorem runClass_eq (s : State) (h : AllDict s) (es : List CEvent) :
    runClass s es = run s (es.map CEvent.event) ∧ AllDict (runClass s es) := by
  induction es generalizing s with
  | nil => exact ⟨rfl, h⟩
  | cons e es ih =>
    cases e with
    | new =>
      refine ih _ ?_
      intro c cls hc
      simp only [stepClass] at hc
      by_cases hlt : c < s.insts.length
      · rw [List.getElem?_append_left hlt] at hc; exact h c cls hc
      · rw [List.getElem?_append_right (by omega)] at hc
        cases hx : c - s.insts.length with
        | zero => rw [hx] at hc; simp at hc; rw [← hc]
        | succ n => rw [hx] at hc; simp at hc
    | access d c =>
      have he : getClass s d c = get s d.desc c false := getClass_eq s d c (h c)
      obtain ⟨h1, h2⟩ := ih (getClass s d c).2 (by rw [he]; exact get_allDict s _ _ _ h)
      refine ⟨?_, h2⟩
      simp only [List.map_cons, run, List.foldl_cons, step, CEvent.event]
      rw [← he]
      exact h1

/-- C26: class method operations: each access of an attribute on a class yields an operation; later
accesses on the same class yield the same operation; accesses on different classes, or of attributes
with different names, yield different operations. -/
theorem C26_classmethod_partial (es es' : List CEvent) (d d' : CDesc) (c c' : Nat)
    (hc : c < (runClass .empty es).insts.length) :
    ∃ o, (getClass (runClass .empty es) d c).1 = .iop o ∧
      (getClass (runClass (getClass (runClass .empty es) d c).2 es') d c).1 = .iop o ∧
      (c ≠ c' ∨ d.name ≠ d'.name →
        (getClass (runClass (getClass (runClass .empty es) d c).2 es') d' c').1 ≠ .iop o) := by
  obtain ⟨e1, a1⟩ := runClass_eq .empty (by intro c cls h; simp [State.empty] at h) es
  have g1 : getClass (runClass .empty es) d c = get (run .empty (es.map CEvent.event)) d.desc c false := by
    rw [getClass_eq _ d c (a1 c), e1]; rfl
  have a2 : AllDict (getClass (runClass .empty es) d c).2 := by
    rw [g1, ← e1]; exact get_allDict _ _ _ _ a1
  obtain ⟨e2, a3⟩ := runClass_eq _ a2 es'
  have g2 : ∀ d' c', getClass (runClass (getClass (runClass .empty es) d c).2 es') d' c' =
      get (run (get (run .empty (es.map CEvent.event)) d.desc c false).2 (es'.map CEvent.event))
        d'.desc c' false := by
    intro d' c'
    rw [getClass_eq _ d' c' (a3 c'), e2, g1]; rfl
  have hs : ∃ o, (getClass (runClass .empty es) d c).1 = .iop o := by
    obtain ⟨cls, hcls⟩ : ∃ cls, (runClass .empty es).insts[c]? = some cls :=
      ⟨_, List.getElem?_eq_getElem hc⟩
    simp only [getClass, hcls]
    cases cls.dict.lookup (ownerKey d.name) with
    | some o => exact ⟨o, rfl⟩
    | none => exact ⟨_, rfl⟩
  have nocopy : ∀ es : List CEvent, NoCopy (es.map CEvent.event) := by
    intro es e he i
    obtain ⟨e', _, rfl⟩ := List.mem_map.1 he
    cases e' <;> simp [CEvent.event]
  obtain ⟨o, ho⟩ := hs
  refine ⟨o, ho, ?_, ?_⟩
  · rw [g2]
    rw [g1] at ho
    exact C26_stable _ _ _ _ _ _ o ho
  · intro hne ho'
    rw [g2] at ho'
    rw [g1] at ho
    refine C26_distinct_partial _ _ (nocopy es) (nocopy es') _ _ c c' _ _ o o ho ho' ?_ rfl
    rcases hne with h | h
    · exact .inl h
    · right
      intro e
      simp only [CDesc.desc, ownerKey, Option.some.injEq, List.append_cancel_left_eq] at e
      exact h e

example : (getClass (runClass .empty [.new, .new]) ⟨1, txt "f"⟩ 0).1 = .iop 0 ∧
    (getClass (runClass .empty [.new, .new, .access ⟨1, txt "f"⟩ 0]) ⟨1, txt "f"⟩ 1).1 = .iop 1 := by
  decide

/-- An operation cannot have two names in a class, nor be in two classes: the second class, or the class that
`dataclass(slots=True)` makes of the first, fails with `AssertionError`. -/
theorem C26_twice_fails (d : Desc) (owner name owner' name' : List Nat) :
    (setNameOnce d false owner name).bind (fun d' => setNameOnce d' false owner' name') = none := by
  unfold setNameOnce setName
  cases d.key <;> rfl

/-- The name is set once, and any number of times in classes of terms, where it stays as it is. -/
theorem C26_once_partial (d : Desc) (owner name : List Nat) :
    setNameOnce d true owner name = some d ∧
      (d.key = none → setNameOnce d false owner name =
        some ⟨d.id, some (txt ("__instanceop" ++ "_") ++ owner ++ txt "_" ++ name)⟩) := by
  refine ⟨by simp [setNameOnce, setName], fun h => ?_⟩
  simp [setNameOnce, setName, h, instanceKey, txt]

example : setNameOnce ⟨1, none⟩ false (txt "A") (txt "f") = some ⟨1, some (instanceKey (txt "A") (txt "f"))⟩ := rfl

/-- C26 fails for class methods: `super().f` in a subclass that overrides `f` is accessed with the
subclass as owner, so it yields the operation of the subclass once that has been accessed. -/
theorem C26_classmethod_super_fails :
    ∃ (d d' : CDesc) (c o : Nat), d.id ≠ d'.id ∧
      (getClass (run .empty [.new true]) d c).1 = .iop o ∧
      (getClass (getClass (run .empty [.new true]) d c).2 d' c).1 = .iop o ∧
      (getClass (run .empty [.new true]) d c).2.iops[o]? = some (⟨d.id, some (ownerKey d.name)⟩, c) :=
  ⟨⟨1, txt "f"⟩, ⟨2, txt "f"⟩, 0, 0, by decide, by decide, by decide, by decide⟩

/-! ## Calls -/

/-- Values: data, instances, terms of class operations and of instance operations. -/
inductive V where
  | val (n : Nat)
  | inst (i : Nat)
  | term (o : Nat) (xs : List V)
  | iterm (o : Nat) (xs : List V)
  deriving Repr

/-- Handlers of class operations and of instance operations, by the number of the operation, and the
default rules of class operations; `none` for a default that raises NotHandled. Simplified: handlers
and defaults call no operations. -/
structure Intp where
  cls : Nat → Option (List V → V)
  ins : Nat → Option (List V → V)

/-- The instance that `evaluate` gives for the `i`-th one. Simplified: its fields hold no operations of its
own (the new instance has no cached operations). -/
def rebuild (s : State) (i : Nat) : Nat × State :=
  match s.insts[i]? with
  | some inst =>
    if inst.rebuilt then (s.insts.length, { s with insts := s.insts ++ [⟨inst.hasDict, [], true⟩] }) else (i, s)
  | none => (i, s)

mutual
/-- `evaluate` of an argument of `defdata` (`ops/syntax.py` 528-543): terms are built again of their evaluated
arguments. -/
def reval : V → State → V × State
  | .val n, s => (.val n, s)
  | .inst i, s => (.inst (rebuild s i).1, (rebuild s i).2)
  | .term o xs, s => (.term o (revals xs s).1, (revals xs s).2)
  | .iterm o xs, s => (.iterm o (revals xs s).1, (revals xs s).2)

def revals : List V → State → List V × State
  | [], s => ([], s)
  | x :: xs, s => ((reval x s).1 :: (revals xs (reval x s).2).1, (revals xs (reval x s).2).2)
end

/-- A call of a class operation: without a handler and with a default that raises NotHandled, `defdata` gives a
term of the evaluated arguments. -/
def callClass (I : Intp) (dflt : Nat → List V → Option V) (d : Desc) (xs : List V) (s : State) : V × State :=
  match I.cls d.id with
  | some h => (h xs, s)
  | none =>
    match dflt d.id xs with
    | some v => (v, s)
    | none => (.term d.id (revals xs s).1, (revals xs s).2)

/-- The default rule `_instance_op` (476-497): call the class operation with the instance; if this gives
a term of the class operation whose first argument has an instance operation, then rewrite it to a term
of that one (by `defdata`, which evaluates the arguments again). `isTerm` says which instances contain terms. -/
def instanceDefault (I : Intp) (dflt : Nat → List V → Option V) (isTerm : Nat → Bool) (d : Desc)
    (i : Nat) (xs : List V) (s : State) : V × State :=
  match callClass I dflt d (.inst i :: xs) s with
  | (.term o (.inst j :: ys), s1) =>
    if o = d.id then
      match get s1 d j (isTerm j) with
      | (.iop o', s2) => (.iterm o' (revals ys s2).1, (revals ys s2).2)
      | (.method _ _, s2) => (.term o (.inst j :: ys), s2)
    else (.term o (.inst j :: ys), s1)
  | r => r

/-- A call of an instance operation. -/
def callInst (I : Intp) (dflt : Nat → List V → Option V) (isTerm : Nat → Bool) (o : Nat)
    (xs : List V) (s : State) : V × State :=
  match I.ins o with
  | some h => (h xs, s)
  | none =>
    match s.iops[o]? with
    | some (d, i) => instanceDefault I dflt isTerm d i xs s
    | none => (.iterm o (revals xs s).1, (revals xs s).2)

/-- Evaluation of a term of an instance operation. Simplified: terms among its arguments are built again, not
called. -/
def evalV (I : Intp) (dflt : Nat → List V → Option V) (isTerm : Nat → Bool) (s : State) : V → V × State
  | .iterm o xs => callInst I dflt isTerm o (revals xs s).1 (revals xs s).2
  | v => (v, s)

mutual
/-- The instances in a value. -/
def V.insts : V → List Nat
  | .val _ => []
  | .inst i => [i]
  | .term _ xs => instsOf xs
  | .iterm _ xs => instsOf xs

def instsOf : List V → List Nat
  | [] => []
  | x :: xs => x.insts ++ instsOf xs
end

/-- `evaluate` leaves the instance as it is. -/
def Kept (s : State) (i : Nat) : Prop := ∀ inst, s.insts[i]? = some inst → inst.rebuilt = false

theorem rebuild_kept (s : State) (i : Nat) (h : Kept s i) : rebuild s i = (i, s) := by
  unfold rebuild
  split
  · rename_i inst hi
    simp [h inst hi]
  · rfl

mutual
theorem reval_kept (s : State) (v : V) (h : ∀ i ∈ v.insts, Kept s i) : reval v s = (v, s) := by
  match v with
  | .val n => rfl
  | .inst i => simp only [reval, rebuild_kept s i (h i (by simp [V.insts]))]
  | .term o xs => simp only [reval, revals_kept s xs (by simpa only [V.insts] using h)]
  | .iterm o xs => simp only [reval, revals_kept s xs (by simpa only [V.insts] using h)]

theorem revals_kept (s : State) (xs : List V) (h : ∀ i ∈ instsOf xs, Kept s i) : revals xs s = (xs, s) := by
  match xs with
  | [] => rfl
  | x :: xs =>
    simp only [instsOf, List.mem_append] at h
    simp only [revals, reval_kept s x (fun i hi => h i (.inl hi)), revals_kept s xs (fun i hi => h i (.inr hi))]
end

/-- Instances stay kept when others are made or accessed. -/
theorem kept_get (s : State) (d : Desc) (i j : Nat) (t : Bool) (h : Kept s j) (hj : j < s.insts.length) :
    Kept (get s d i t).2 j := by
  intro inst' h'
  obtain ⟨inst, hi⟩ : ∃ inst, s.insts[j]? = some inst := ⟨_, List.getElem?_eq_getElem hj⟩
  have hr := h inst hi
  unfold get at h'
  split at h'
  · exact h _ h'
  · rename_i ii hii
    split at h'
    · split at h'
      · exact h _ h'
      · split at h'
        · exact h _ h'
        · split at h'
          · exact h _ h'
          · by_cases e : i = j
            · subst e
              simp only [List.getElem?_set_self hj, Option.some.injEq] at h'
              rw [← h']
              exact h ii hii
            · simp only [List.getElem?_set_ne e] at h'
              exact h _ h'
    · exact h _ h'

variable (dflt : Nat → List V → Option V) (isTerm : Nat → Bool)

/-- C26: a handler for one instance's operation is used for calls of this operation only: calls of
another instance operation are the same with and without it. -/
theorem C26_isolated (I : Intp) (o o' : Nat) (h : List V → V) (xs : List V) (s : State)
    (hne : o ≠ o') :
    let J : Intp := { I with ins := fun x => if x = o then some h else I.ins x }
    callInst J dflt isTerm o xs s = (h xs, s) ∧
    callInst J dflt isTerm o' xs s = callInst I dflt isTerm o' xs s := by
  constructor
  · simp [callInst]
  · have : ¬ o' = o := fun e => hne e.symm
    simp only [callInst, this, if_false]
    rfl

/-- C26: a handler of the class operation applies to each instance whose own operation is not handled,
with the instance as first argument (if its result is not again a term of the class operation). -/
theorem C26_class_handler (I : Intp) (d : Desc) (i o : Nat) (h : List V → V) (xs : List V) (s : State)
    (ho : I.ins o = none) (hd : I.cls d.id = some h) (hi : s.iops[o]? = some (d, i))
    (hr : ∀ ys, h (.inst i :: xs) ≠ .term d.id ys) :
    callInst I dflt isTerm o xs s = (h (.inst i :: xs), s) := by
  simp only [callInst, ho, hi, instanceDefault, callClass, hd]
  split
  · rename_i o' j ys s1 e
    obtain ⟨e1, e2⟩ := Prod.mk.inj e
    split
    · rename_i e'; subst e'; exact absurd e1 (hr _)
    · rw [e]
  · rfl

/-- C26: if the handler of the class operation gives a term of the class operation with an instance `j` as its
first argument, the call gives a term of the operation of `j`, with the other arguments; if `j` has none (a
slotted instance, or one with terms in it) the term stays as it is. -/
theorem C26_class_term (I : Intp) (d : Desc) (i j o : Nat) (h : List V → V) (xs ys : List V) (s : State)
    (ho : I.ins o = none) (hd : I.cls d.id = some h) (hi : s.iops[o]? = some (d, i))
    (hr : h (.inst i :: xs) = .term d.id (.inst j :: ys))
    (hys : ∀ i ∈ instsOf ys, Kept s i ∧ i < s.insts.length) :
    callInst I dflt isTerm o xs s =
      match get s d j (isTerm j) with
      | (.iop o', s') => (.iterm o' ys, s')
      | (.method _ _, s') => (.term d.id (.inst j :: ys), s') := by
  simp only [callInst, ho, hi, instanceDefault, callClass, hd, hr, if_true]
  have hk := fun i hi => kept_get s d j i (isTerm j) (hys i hi).1 (hys i hi).2
  generalize hg : get s d j (isTerm j) = g at hk ⊢
  obtain ⟨a, s'⟩ := g
  cases a with
  | iop o' => simp only [revals_kept s' ys hk]
  | method d' i' => rfl

/-- A handler that passes the call on to another instance: the result is a term of that one's operation. -/
example : let s := run .empty [.new true, .new true, .access dA 0 false]
    callInst ⟨fun o => if o = 100 then some (fun xs => .term 100 (.inst 1 :: xs.drop 1)) else none, fun _ => none⟩
      (fun _ _ => none) (fun _ => false) 0 [.val 5] s =
      (.iterm 1 [.val 5], (get s dA 1 false).2) := rfl

/-- C26: a handler of the instance operation comes before one of the class operation. -/
theorem C26_instance_first (I : Intp) (o : Nat) (h : List V → V) (xs : List V) (s : State)
    (ho : I.ins o = some h) : callInst I dflt isTerm o xs s = (h xs, s) := by
  simp [callInst, ho]

/-- C26: if neither is handled and the default raises NotHandled, the call stays a term of the instance
operation; evaluating it later is the same as making the call later, so that handlers of the instance
operation and of the class operation are found. Partial: for instances that `evaluate` leaves as they are. -/
theorem C26_late_partial (I J : Intp) (es : List Event) (d : Desc) (i o : Nat) (t : Bool)
    (xs : List V) (hget : (get (run .empty es) d i t).1 = .iop o)
    (hsame : (get (run .empty es) d i t).2.iops[o]? = some (d, i))
    (hkept : Kept (get (run .empty es) d i t).2 i)
    (hxs : ∀ j ∈ instsOf xs, Kept (get (run .empty es) d i t).2 j)
    (ho : I.ins o = none) (hd : I.cls d.id = none) (hdf : dflt d.id (.inst i :: xs) = none) :
    let s := (get (run .empty es) d i t).2
    callInst I dflt isTerm o xs s = (.iterm o xs, s) ∧
    evalV J dflt isTerm s (callInst I dflt isTerm o xs s).1 = callInst J dflt isTerm o xs s := by
  intro s
  have hg : ∀ b, get s d i b = (.iop o, s) := by
    intro b
    obtain ⟨k, inst, hk, hi, hdict, hc⟩ := get_cached (run .empty es) d i t o hget
    obtain ⟨i1, h1, h2, _⟩ := get_keeps (run .empty es) d i t i inst hi
    have hl : i1.dict.lookup k = some o := by simpa [cached, h1] using hc
    simp only [get]
    rw [h1]
    simp only [h2, hdict, if_true, hk, hl]
  have hrs : revals xs s = (xs, s) := revals_kept s xs hxs
  have hr : revals (.inst i :: xs) s = (.inst i :: xs, s) :=
    revals_kept s _ (by
      intro j hj
      simp only [instsOf, V.insts, List.mem_append, List.mem_singleton] at hj
      rcases hj with rfl | hj
      · exact hkept
      · exact hxs j hj)
  have hcall : callInst I dflt isTerm o xs s = (.iterm o xs, s) := by
    simp only [callInst, ho]
    rw [hsame]
    simp only [instanceDefault, callClass, hd, hdf, hr, if_true, hg, hrs]
  refine ⟨hcall, ?_⟩
  rw [hcall]
  simp only [evalV, hrs]

/-- The hypotheses of `C26_late_partial` can be met, and then a handler of the class operation is found. -/
example : let s := (get (run .empty [.new true, .new true]) dA 1 false).2
    (get (run .empty [.new true, .new true]) dA 1 false).1 = .iop 0 ∧ s.iops[0]? = some (dA, 1) ∧
    Kept s 1 ∧
    callInst ⟨fun _ => none, fun _ => none⟩ (fun _ _ => none) (fun _ => false) 0 [.val 5] s =
      (.iterm 0 [.val 5], s) ∧
    evalV ⟨fun o => if o = 100 then some (fun xs => .val xs.length) else none, fun _ => none⟩
      (fun _ _ => none) (fun _ => false) s (.iterm 0 [.val 5]) = (.val 2, s) := by
  refine ⟨by decide, by decide, ?_, rfl, rfl⟩
  rintro _ ⟨⟩
  rfl

/-- C26 fails for dataclasses, sequences and mappings: a call that stays a term is a term of a new operation,
that of a new instance made by `evaluate`, not of the operation called (which stays that of the instance); when the
term is evaluated, a handler of the operation called makes no difference. -/
theorem C26_rebuilt_fails (I : Intp) (d : Desc) (i o : Nat) (inst : Inst) (xs : List V) (s : State)
    (hi : s.insts[i]? = some inst) (hre : inst.rebuilt = true)
    (hget : (get s d i false).1 = .iop o) (hsame : s.iops[o]? = some (d, i))
    (ht : isTerm s.insts.length = false)
    (hxs : ∀ j ∈ instsOf xs, Kept s j ∧ j < s.insts.length)
    (ho : I.ins o = none) (hd : I.cls d.id = none) (hdf : dflt d.id (.inst i :: xs) = none) :
    ∃ o' s', callInst I dflt isTerm o xs s = (.iterm o' xs, s') ∧ o' ≠ o ∧
      s'.iops[o']? = some (d, s.insts.length) ∧ (get s' d i false).1 = .iop o ∧
      ∀ (J : Intp) (h : List V → V),
        evalV { J with ins := fun x => if x = o then some h else J.ins x } dflt isTerm s' (.iterm o' xs) =
          evalV J dflt isTerm s' (.iterm o' xs) := by
  obtain ⟨k, inst', hk, hi', hdict, hc⟩ := get_cached s d i false o hget
  obtain rfl : inst = inst' := Option.some.inj (hi.symm.trans hi')
  have holt : o < s.iops.length := (List.getElem?_eq_some_iff.1 hsame).1
  have hilt : i < s.insts.length := (List.getElem?_eq_some_iff.1 hi).1
  have hl : inst.dict.lookup k = some o := by
    simp only [get, hi, hdict, if_true, hk] at hget
    cases hlk : inst.dict.lookup k with
    | some o' => rw [hlk] at hget; simpa using hget
    | none =>
      rw [hlk] at hget
      simp only [Bool.false_eq_true, if_false, Attr.iop.injEq] at hget
      omega
  -- the state after the evaluation of the arguments
  obtain ⟨s1, hs1⟩ : ∃ s1 : State, s1 = { s with insts := s.insts ++ [⟨true, [], true⟩] } := ⟨_, rfl⟩
  have hkept1 : ∀ j ∈ instsOf xs, Kept s1 j := by
    intro j hj inst2 h2
    rw [hs1] at h2
    simp only [List.getElem?_append_left (hxs j hj).2] at h2
    exact (hxs j hj).1 inst2 h2
  have hreb : rebuild s i = (s.insts.length, s1) := by
    simp only [rebuild, hi, hre, if_true, hs1, hdict]
  have hr : revals (.inst i :: xs) s = (.inst s.insts.length :: xs, s1) := by
    simp only [revals, reval, hreb, revals_kept s1 xs hkept1]
  have hnew : s1.insts[s.insts.length]? = some ⟨true, [], true⟩ := by
    rw [hs1]; simp
  obtain ⟨s2, hs2⟩ : ∃ s2 : State, s2 = (⟨s1.insts.set s.insts.length ⟨true, [(k, s1.iops.length)], true⟩,
      s1.iops ++ [(d, s.insts.length)]⟩ : State) := ⟨_, rfl⟩
  have hg : get s1 d s.insts.length false = (.iop s1.iops.length, s2) := by
    simp only [get, hnew, if_true, hk, List.lookup, Bool.false_eq_true, if_false, hs2]
  have hio : s1.iops = s.iops := by rw [hs1]
  have hkept2 : ∀ j ∈ instsOf xs, Kept s2 j := by
    intro j hj
    have h2 := kept_get s1 d s.insts.length j false (hkept1 j hj)
      (by rw [hs1]; have := (hxs j hj).2; simp; omega)
    rwa [hg] at h2
  refine ⟨s.iops.length, s2, ?_, by omega, ?_, ?_, ?_⟩
  · simp only [callInst, ho, hsame, instanceDefault, callClass, hd, hdf, hr, if_true, ht, hg,
      revals_kept s2 xs hkept2, hio]
  · rw [hs2, hio]; simp
  · have h2 : s2.insts[i]? = some inst := by
      rw [hs2, hs1]
      have hne : s.insts.length ≠ i := by omega
      simp only [List.getElem?_set_ne hne, List.getElem?_append_left hilt, hi]
    simp only [get, h2, hdict, if_true, hk, hl]
  · intro J h
    have hne : ¬ s.iops.length = o := by omega
    simp only [evalV, callInst, hne, if_false]
    rfl

/-- A dataclass instance whose method is called without handlers, and the term evaluated with a handler for the
operation that was called: it is not found. -/
example : let s := run .empty [.new true true, .access dA 0 false]
    let r := callInst ⟨fun _ => none, fun _ => none⟩ (fun _ _ => none) (fun _ => false) 0 [.val 5] s
    r.1 = .iterm 1 [.val 5] ∧ (get s dA 0 false).1 = .iop 0 ∧
    (evalV ⟨fun _ => none, fun o => if o = 0 then some (fun _ => .val 7) else none⟩
      (fun _ _ => none) (fun _ => false) r.2 r.1).1 = .iterm 2 [.val 5] :=
  ⟨rfl, rfl, rfl⟩

/-- C26: a handler of the class operation is found in the terms of all instances, also of dataclasses: when a term
of an instance operation is evaluated, it is called with the instance and the arguments. -/
theorem C26_class_late (J : Intp) (d : Desc) (i o : Nat) (h : List V → V) (xs : List V) (s : State)
    (ho : J.ins o = none) (hd : J.cls d.id = some h) (hi : s.iops[o]? = some (d, i))
    (hxs : ∀ j ∈ instsOf xs, Kept s j) (hr : ∀ ys, h (.inst i :: xs) ≠ .term d.id ys) :
    evalV J dflt isTerm s (.iterm o xs) = (h (.inst i :: xs), s) := by
  simp only [evalV, revals_kept s xs hxs]
  exact C26_class_handler dflt isTerm J d i o h xs s ho hd hi hr

end Verif.Objects.Method
