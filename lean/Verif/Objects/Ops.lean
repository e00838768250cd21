/-!
# Creating operations

Model of `Operation.define` (`ops/types.py` 81-88, 138-359) and of equality, order and hash of
operations (110-136).
-/

namespace Verif.Objects

/-- What a default rule does when it is called. `user` and `builtin` stand for functions given by the
user; the others are the wrappers that `define` makes. -/
inductive Default where
  /-- a function or other callable, with its identity -/
  | user (f : Nat)
  /-- raises NotHandled (283-285 for copies, 299-300 for types); each call of `define` makes a new
  function -/
  | notHandled (serial : Nat)
  /-- calls the function if the arguments have no free variables (311-318) -/
  | builtin (f : Nat) (serial : Nat)
  deriving DecidableEq, Repr

/-- An operation object. `addr` is `id(op)`. `serial` is the number of the creation and is not visible
to programs. -/
structure OpObj where
  serial : Nat
  addr : Nat
  name : String
  dflt : Default
  deriving DecidableEq, Repr

/-- The operations that exist, and the number of creations so far. -/
structure Store where
  live : List OpObj
  next : Nat
  deriving Repr

def Store.empty : Store := ⟨[], 0⟩

/-- Arguments of `define` that give an operation, possibly wrapped in a static method. Simplified:
class methods, single-dispatch methods and signatures are left out. -/
inductive Source where
  | callable (f : Nat) (name : String)
  | operation (o : OpObj)
  | type (name : String)
  | builtin (f : Nat) (name : String)
  | static (s : Source)
  deriving Repr

/-- The default rule and its `__name__`, for the `n`-th creation: `_define_callable` 274-291,
`_define_type` 293-304, `_define_builtinfunctiontype` 306-320, `_define_staticmethod` 322-325. -/
def Source.dflt (n : Nat) : Source → Default × String
  | .callable f name => (.user f, name)
  | .operation o => (.notHandled n, o.name)
  | .type name => (.notHandled n, name)
  | .builtin f name => (.builtin f n, name)
  | .static s => s.dflt n

/-- `Operation.__init__` (81-88): `self.__name__ = name or default.__name__`. The allocator returns
the address `a`. -/
def newOp (a : Nat) (name : Option String) (s : Source) (h : Store) : OpObj × Store :=
  let d := s.dflt h.next
  let nm := match name with
    | some n => if n = "" then d.2 else n
    | none => d.2
  let o : OpObj := ⟨h.next, a, nm, d.1⟩
  (o, ⟨o :: h.live, h.next + 1⟩)

/-- What can happen to the set of operations: `define` with the address chosen by the allocator, or the
collection of an operation that is no longer used. -/
inductive Event where
  | define (a : Nat) (name : Option String) (s : Source)
  | free (o : OpObj)

/-- An allocator never returns the address of an object that exists. -/
def Event.legal (h : Store) : Event → Prop
  | .define a _ _ => ∀ o ∈ h.live, o.addr ≠ a
  | .free _ => True

def step (h : Store) : Event → Store
  | .define a name s => (newOp a name s h).2
  | .free o => ⟨h.live.filter (· ≠ o), h.next⟩

/-- States that a program can reach. -/
inductive Reach : Store → Prop where
  | empty : Reach Store.empty
  | step {h : Store} (e : Event) : Reach h → e.legal h → Reach (step h e)

/-- `__eq__` (110-113): `self is other`. -/
def opEq (x y : OpObj) : Bool := x.addr == y.addr

/-- `__lt__`, `__gt__`, `__le__`, `__ge__` (115-133). -/
def opLt (x y : OpObj) : Bool := x.addr < y.addr
def opGt (x y : OpObj) : Bool := x.addr > y.addr
def opLe (x y : OpObj) : Bool := x.addr ≤ y.addr
def opGe (x y : OpObj) : Bool := x.addr ≥ y.addr

/-- `__hash__` (135-136): the hash of the default rule. -/
def opHash (H : Default → Nat) (x : OpObj) : Nat := H x.dflt

/-- A dict with operations as keys: entries are found by hash and `==`. -/
def dictFind {V : Type} (H : Default → Nat) (x : OpObj) : List (OpObj × V) → Option V
  | [] => none
  | (k, w) :: d => if opHash H k == opHash H x && opEq k x then some w else dictFind H x d

/-- `d[x] = w`. -/
def dictSet {V : Type} (H : Default → Nat) (x : OpObj) (w : V) : List (OpObj × V) →
    List (OpObj × V)
  | [] => [(x, w)]
  | (k, w') :: d =>
    if opHash H k == opHash H x && opEq k x then (k, w) :: d else (k, w') :: dictSet H x w d

/-! ## C23 -/

theorem reach_inv {h : Store} (hr : Reach h) :
    (∀ o ∈ h.live, o.serial < h.next) ∧
    (∀ o ∈ h.live, ∀ o' ∈ h.live, o.addr = o'.addr → o = o') ∧
    (∀ o ∈ h.live, ∀ o' ∈ h.live, o.serial = o'.serial → o = o') := by
  induction hr with
  | empty => simp [Store.empty]
  | @step h e _ hl ih =>
    obtain ⟨h1, h2, h3⟩ := ih
    cases e with
    | define a name s =>
      simp only [step, newOp, List.mem_cons]
      simp only [Event.legal] at hl
      refine ⟨?_, ?_, ?_⟩
      · rintro o (rfl | ho)
        · simp
        · have := h1 o ho; omega
      · rintro o (rfl | ho) o' (rfl | ho') e
        · rfl
        · exact absurd e.symm (hl o' ho')
        · exact absurd e (hl o ho)
        · exact h2 o ho o' ho' e
      · rintro o (rfl | ho) o' (rfl | ho') e
        · rfl
        · have := h1 o' ho'; simp at e; omega
        · have := h1 o ho; simp at e; omega
        · exact h3 o ho o' ho' e
    | free o =>
      simp only [step, List.mem_filter]
      exact ⟨fun o ho => h1 o ho.1, fun o ho o' ho' => h2 o ho.1 o' ho'.1,
        fun o ho o' ho' => h3 o ho.1 o' ho'.1⟩

/-- C23: the operation returned by `define` differs from every operation that exists, also from the
one that is copied and from those with the same name and default rule. -/
theorem C23_fresh (h : Store) (hr : Reach h) (a : Nat) (name : Option String) (s : Source)
    (hl : (Event.define a name s).legal h) (o : OpObj) (ho : o ∈ h.live) :
    opEq (newOp a name s h).1 o = false ∧ (newOp a name s h).1.serial ≠ o.serial := by
  have h1 := (reach_inv hr).1 o ho
  have h2 := hl o ho
  exact ⟨by simpa [opEq, newOp] using fun e => h2 e.symm, by simp [newOp]; omega⟩

/-- C23: two operations that exist are equal iff they come from the same creation. -/
theorem C23_identity (h : Store) (hr : Reach h) (x y : OpObj) (hx : x ∈ h.live)
    (hy : y ∈ h.live) : opEq x y = true ↔ x.serial = y.serial := by
  obtain ⟨_, h2, h3⟩ := reach_inv hr
  constructor
  · intro e; rw [h2 x hx y hy (by simpa [opEq] using e)]
  · intro e; rw [h3 x hx y hy e]; simp [opEq]

/-- Histories. -/
inductive Steps : Store → Store → Prop where
  | refl {h : Store} : Steps h h
  | step {h h' : Store} (e : Event) : Steps h h' → e.legal h' → Steps h (step h' e)

theorem steps_old {h h' : Store} (hs : Steps h h') :
    h.next ≤ h'.next ∧ ∀ o ∈ h'.live, o.serial < h.next → o ∈ h.live := by
  induction hs with
  | refl => exact ⟨Nat.le_refl _, fun o ho _ => ho⟩
  | @step h' e _ _ ih =>
    cases e with
    | define a name s =>
      simp only [step, newOp, List.mem_cons]
      refine ⟨by omega, ?_⟩
      rintro o (rfl | ho) hlt
      · simp at hlt; omega
      · exact ih.2 o ho hlt
    | free o' =>
      simp only [step, List.mem_filter]
      exact ⟨ih.1, fun o ho => ih.2 o ho.1⟩

/-- C23: equal operations have equal hashes, and the hash of an operation is the same at any two
moments of a history: it depends on the default rule, which is never replaced. -/
theorem C23_hash (H : Default → Nat) (h h' : Store) (hr : Reach h) (hs : Steps h h')
    (x y : OpObj) (hx : x ∈ h.live) :
    (y ∈ h.live → opEq x y = true → opHash H x = opHash H y) ∧
    (y ∈ h'.live → x.serial = y.serial → opHash H x = opHash H y) := by
  obtain ⟨h1, h2, h3⟩ := reach_inv hr
  constructor
  · intro hy e
    rw [h2 x hx y hy (by simpa [opEq] using e)]
  · intro hy e
    have hy' := (steps_old hs).2 y hy (by rw [← e]; exact h1 x hx)
    rw [h3 x hx y hy' e]

/-- C23: the order is total, transitive and agrees with equality. -/
theorem C23_order (h : Store) (hr : Reach h) (x y z : OpObj) (hx : x ∈ h.live) (hy : y ∈ h.live) :
    (opLt x y = true ∨ opEq x y = true ∨ opLt y x = true) ∧
    ¬(opLt x y = true ∧ opEq x y = true) ∧ ¬(opLt x y = true ∧ opLt y x = true) ∧
    (opLt x y = true → opLt y z = true → opLt x z = true) ∧
    (opLe x y = true ↔ opLt x y = true ∨ x.serial = y.serial) ∧
    (opGt x y = opLt y x) ∧ (opGe x y = opLe y x) := by
  have hid := C23_identity h hr x y hx hy
  simp only [opLt, opEq, opLe, opGt, opGe, decide_eq_true_eq, beq_iff_eq] at *
  rw [← hid]
  refine ⟨by omega, by omega, by omega, fun _ _ => by omega, by omega, by trivial, by trivial⟩

/-- C23: a dict of operations finds exactly the entry of the very operation, although different
operations may have equal hashes. -/
theorem C23_dict {V : Type} (H : Default → Nat) (h : Store) (hr : Reach h)
    (d : List (OpObj × V)) (hd : ∀ e ∈ d, e.1 ∈ h.live) (x y : OpObj) (hx : x ∈ h.live)
    (hy : y ∈ h.live) (w : V) :
    dictFind H y (dictSet H x w d) = if y.serial = x.serial then some w else dictFind H y d := by
  obtain ⟨_, h2, h3⟩ := reach_inv hr
  have key : ∀ a ∈ h.live, ∀ b ∈ h.live,
      (opHash H a == opHash H b && opEq a b) = decide (b.serial = a.serial) := by
    intro a ha b hb
    by_cases e : b.serial = a.serial
    · rw [h3 b hb a ha e]; simp [opEq]
    · have : a.addr ≠ b.addr := fun e' => e (by rw [h2 a ha b hb e'])
      simp [opEq, e, this]
  induction d with
  | nil =>
    simp only [dictSet, dictFind, key x hx y hy]
    by_cases e : y.serial = x.serial <;> simp [e]
  | cons p d ih =>
    obtain ⟨k, w'⟩ := p
    have hk : k ∈ h.live := hd (k, w') List.mem_cons_self
    have ih := ih (fun e he => hd e (List.mem_cons_of_mem _ he))
    simp only [dictSet, key k hk x hx]
    by_cases e : x.serial = k.serial
    · simp only [e, decide_true, if_true, dictFind, key k hk y hy]
      by_cases e' : y.serial = k.serial <;> simp [e']
    · simp only [e, decide_false, Bool.false_eq_true, if_false, dictFind, key k hk y hy, ih]
      by_cases e' : y.serial = k.serial
      · have : ¬ k.serial = x.serial := fun h => e h.symm
        simp [e', this]
      · simp [e']

/-- C23: a copy keeps the name (unless another one is given) and has no default rule; so does a
variable made from a type. -/
theorem C23_copy (h : Store) (a : Nat) (o : OpObj) (ty n : String) (hn : n ≠ "") :
    (newOp a none (.operation o) h).1.name = o.name ∧
    (newOp a (some n) (.operation o) h).1.name = n ∧
    (∃ k, (newOp a none (.operation o) h).1.dflt = .notHandled k) ∧
    (∃ k, (newOp a none (.type ty) h).1.dflt = .notHandled k) := by
  refine ⟨rfl, by simp [newOp, hn], ⟨_, rfl⟩, ⟨_, rfl⟩⟩

/-- C23: an operation made from a function or from a builtin runs this function, with or without `staticmethod`. -/
theorem C23_default (h : Store) (a f : Nat) (n : Option String) (nm : String) :
    (newOp a n (.callable f nm) h).1.dflt = .user f ∧ (newOp a n (.static (.callable f nm)) h).1.dflt = .user f ∧
    (∃ k, (newOp a n (.builtin f nm) h).1.dflt = .builtin f k) ∧
    ∃ k, (newOp a n (.static (.builtin f nm)) h).1.dflt = .builtin f k :=
  ⟨rfl, rfl, ⟨_, rfl⟩, ⟨_, rfl⟩⟩

/-! ### Example: two operations from the same function, a copy, and an address used again. -/

def exStore : Store :=
  let h1 := step .empty (.define 10 none (.callable 7 "f"))
  let h2 := step h1 (.define 20 none (.callable 7 "f"))
  let h3 := step h2 (.define 15 (some "g") (.operation ⟨0, 10, "f", .user 7⟩))
  let h4 := step h3 (.free ⟨1, 20, "f", .user 7⟩)
  step h4 (.define 20 none (.type "int"))

example : exStore.live =
    [⟨3, 20, "int", .notHandled 3⟩, ⟨2, 15, "g", .notHandled 2⟩, ⟨0, 10, "f", .user 7⟩] := by
  decide

example : Reach exStore := by
  unfold exStore
  refine .step _ (.step _ (.step _ (.step _ (.step _ .empty ?_) ?_) ?_) ?_) ?_ <;>
    simp [Event.legal, step, newOp, Store.empty, Source.dflt]

/-- Two operations of the same function have the same hash and are different. -/
example : let h1 := step .empty (.define 10 none (.callable 7 "f"))
    let h2 := step h1 (.define 20 none (.callable 7 "f"))
    h2.live.length = 2 ∧ (∀ x ∈ h2.live, ∀ y ∈ h2.live, opHash (fun _ => 3) x = opHash (fun _ => 3) y)
      ∧ ∃ x ∈ h2.live, ∃ y ∈ h2.live, opEq x y = false := by
  decide

end Verif.Objects
