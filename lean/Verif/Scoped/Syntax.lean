/-!
# C118: what may be written in `Scoped[...]`

Model of `Scoped.__class_getitem__` (`ops/syntax.py` 126-135) and of the unions of Python 3.12 that it is given: `X | Y` and
`typing.Union[X, Y]`.

* A member of a union is a type variable or another type; other types are classes, given by numbers. `None` counts as the class `NoneType`
  (`None | None`, which raises, is left out).
* `X | Y` of types other than type variables and `typing.Union`s is a `types.UnionType`; if one of them is a type variable or a
  `typing.Union`, it is a `typing.Union`. Both are flattened and have each member once; a union of one member is the member. `typing.Union[()]`
  raises `TypeError`. From Python 3.14 on the two kinds of unions are one.
-/

namespace Verif.Scoped.Syntax

/-- Members of unions. -/
inductive Atom where
  | var (n : Nat)
  | cls (n : Nat)
  deriving DecidableEq, Repr

/-- Types as objects. -/
inductive Ty where
  | atom (a : Atom)
  /-- `typing.Union` -/
  | union (as : List Atom)
  /-- `types.UnionType` -/
  | bar (as : List Atom)
  deriving DecidableEq, Repr

/-- Type expressions as written. -/
inductive Written where
  | atom (a : Atom)
  | or (x y : Written)
  | union (xs : List Written)

inductive Error where
  /-- of Python or `Scoped` -/
  | type
  | assertion
  deriving DecidableEq, Repr

/-- The members. -/
def members : Ty → List Atom
  | .atom a => [a]
  | .union as => as
  | .bar as => as

/-- Each member once, where it occurs first. -/
def dedup : List Atom → List Atom
  | [] => []
  | a :: as => a :: (dedup as).filter (· != a)

/-- `typing.Union[...]` of flattened members. -/
def makeUnion (as : List Atom) : Except Error Ty :=
  match dedup as with
  | [] => .error .type
  | [a] => .ok (.atom a)
  | bs => .ok (.union bs)

/-- `X | Y` of classes. -/
def makeBar (as : List Atom) : Ty :=
  match dedup as with
  | [a] => .atom a
  | bs => .bar bs

/-- Whether `|` is that of `typing`. -/
def typing : Ty → Bool
  | .atom (.var _) => true
  | .atom (.cls _) => false
  | .union _ => true
  | .bar _ => false

/-- `x | y`. -/
def or (x y : Ty) : Except Error Ty :=
  if typing x || typing y then makeUnion (members x ++ members y) else .ok (makeBar (members x ++ members y))

mutual

/-- The object of a type expression. -/
def object : Written → Except Error Ty
  | .atom a => .ok (.atom a)
  | .or x y => do
    let a ← object x
    let b ← object y
    or a b
  | .union xs => do
    let as ← objects xs
    makeUnion as

/-- The members of a list. -/
def objects : List Written → Except Error (List Atom)
  | [] => .ok []
  | x :: xs => do
    let a ← object x
    let as ← objects xs
    .ok (members a ++ as)

end

/-- `Scoped.__class_getitem__` (126-135), for the object that is given: a tuple or a type. -/
def classGetitem : List Ty ⊕ Ty → Except Error (List Atom)
  | .inl _ => .error .assertion
  | .inr (.atom (.var n)) => .ok [.var n]
  | .inr (.union as) => if as.isEmpty then .error .type else .ok as
  | .inr _ => .error .type

/-- `Scoped[x]`. -/
def scopeOf (x : Written) : Except Error (List Atom) := do
  let t ← object x
  classGetitem (.inr t)

/-! ## Specification -/

mutual

/-- The members that are written in an expression, in order. -/
def leaves : Written → List Atom
  | .atom a => [a]
  | .or x y => leaves x ++ leaves y
  | .union xs => leavesAll xs

def leavesAll : List Written → List Atom
  | [] => []
  | x :: xs => leaves x ++ leavesAll xs

end

/-- `typing.Union[()]` is not written. -/
inductive NoEmpty : Written → Prop where
  | atom (a : Atom) : NoEmpty (.atom a)
  | or (x y : Written) : NoEmpty x → NoEmpty y → NoEmpty (.or x y)
  | union (xs : List Written) : xs ≠ [] → (∀ x ∈ xs, NoEmpty x) → NoEmpty (.union xs)

/-- Only classes and `|` are written. -/
inductive Classes : Written → Prop where
  | atom (n : Nat) : Classes (.atom (.cls n))
  | or (x y : Written) : Classes x → Classes y → Classes (.or x y)

/-! ## Proofs -/

theorem mem_dedup {a : Atom} {as : List Atom} : a ∈ dedup as ↔ a ∈ as := by
  induction as with
  | nil => simp [dedup]
  | cons b bs ih =>
    rw [dedup, List.mem_cons, List.mem_filter, ih, List.mem_cons]
    by_cases h : a = b <;> simp [h]

theorem dedup_nodup (as : List Atom) : (dedup as).Nodup := by
  induction as with
  | nil => exact List.nodup_nil
  | cons b bs ih =>
    rw [dedup, List.nodup_cons]
    exact ⟨fun h => by simp [List.mem_filter] at h, ih.filter _⟩

/-- Members of an object are members of what is written; each is there once; a union has two at least. -/
structure Good (t : Ty) (as : List Atom) : Prop where
  mem : ∀ a, a ∈ members t ↔ a ∈ as
  nodup : (members t).Nodup
  ne : members t ≠ []
  two : ∀ bs, t = .union bs ∨ t = .bar bs → 2 ≤ bs.length

theorem two_of {bs : List Atom} (h0 : bs ≠ []) (h1 : ∀ a, bs ≠ [a]) : 2 ≤ bs.length := by
  match bs with
  | [] => exact (h0 rfl).elim
  | [a] => exact (h1 a rfl).elim
  | _ :: _ :: _ => simp

theorem makeUnion_good {as : List Atom} (h : as ≠ []) : ∃ t, makeUnion as = .ok t ∧ Good t as ∧ ∀ bs, t ≠ .bar bs := by
  have hm : ∀ a, a ∈ dedup as ↔ a ∈ as := fun a => mem_dedup
  have hn := dedup_nodup as
  unfold makeUnion
  split
  · rename_i hd
    obtain ⟨a, ha⟩ := List.exists_mem_of_ne_nil as h
    have := (hm a).2 ha
    rw [hd] at this
    cases this
  · rename_i a hd
    rw [hd] at hm
    exact ⟨_, rfl, ⟨hm, by simp [members], by simp [members], fun bs hb => by rcases hb with hb | hb <;> cases hb⟩, fun bs hb => by cases hb⟩
  · rename_i h0 h1
    refine ⟨_, rfl, ⟨hm, hn, h0, fun bs hb => ?_⟩, fun bs hb => by cases hb⟩
    rcases hb with hb | hb
    · cases hb; exact two_of h0 h1
    · cases hb

theorem makeBar_good {as : List Atom} (h : as ≠ []) : Good (makeBar as) as ∧ ∀ bs, makeBar as ≠ .union bs := by
  have hm : ∀ a, a ∈ dedup as ↔ a ∈ as := fun a => mem_dedup
  have hn := dedup_nodup as
  unfold makeBar
  split
  · rename_i a hd
    rw [hd] at hm
    exact ⟨⟨hm, by simp [members], by simp [members], fun bs hb => by rcases hb with hb | hb <;> cases hb⟩, fun bs hb => by cases hb⟩
  · rename_i h1
    have h0 : dedup as ≠ [] := fun h0 => by
      obtain ⟨a, ha⟩ := List.exists_mem_of_ne_nil as h
      have := (hm a).2 ha
      rw [h0] at this
      cases this
    refine ⟨⟨hm, hn, h0, fun bs hb => ?_⟩, fun bs hb => by cases hb⟩
    rcases hb with hb | hb
    · cases hb
    · cases hb; exact two_of h0 h1

theorem append_ne {as bs : List Atom} (h : as ≠ []) : as ++ bs ≠ [] := by
  cases as with
  | nil => exact (h rfl).elim
  | cons a as => simp

theorem or_good {x y : Ty} {as bs : List Atom} (hx : Good x as) (hy : Good y bs) : ∃ t, or x y = .ok t ∧ Good t (as ++ bs) := by
  have hm : ∀ t, Good t (members x ++ members y) → Good t (as ++ bs) := fun t h =>
    ⟨fun a => by rw [h.mem, List.mem_append, List.mem_append, hx.mem, hy.mem], h.nodup, h.ne, h.two⟩
  unfold or
  split
  · obtain ⟨t, h1, h2, -⟩ := makeUnion_good (append_ne (bs := members y) hx.ne)
    exact ⟨t, h1, hm t h2⟩
  · exact ⟨_, rfl, hm _ (makeBar_good (append_ne (bs := members y) hx.ne)).1⟩

theorem object_good {x : Written} (h : NoEmpty x) : ∃ t, object x = .ok t ∧ Good t (leaves x) := by
  induction h with
  | atom a =>
    refine ⟨.atom a, by rw [object], ⟨fun b => by rw [leaves, members], by simp [members], by simp [members], fun bs hb => ?_⟩⟩
    rcases hb with hb | hb <;> cases hb
  | or x y _ _ ihx ihy =>
    obtain ⟨s, hs, gs⟩ := ihx
    obtain ⟨t, ht, gt⟩ := ihy
    rw [object, hs, ht, leaves]
    exact or_good gs gt
  | union xs hne _ ih =>
    have key : ∀ ys : List Written, (∀ y ∈ ys, ∃ t, object y = .ok t ∧ Good t (leaves y)) →
        ∃ as, objects ys = .ok as ∧ (∀ a, a ∈ as ↔ a ∈ leavesAll ys) ∧ (ys ≠ [] → as ≠ []) := by
      intro ys
      induction ys with
      | nil => intro _; exact ⟨[], by rw [objects], fun a => by rw [leavesAll], fun h => (h rfl).elim⟩
      | cons y ys ihy =>
        intro hy
        obtain ⟨t, ht, gt⟩ := hy y (by simp)
        obtain ⟨as, has, hm, -⟩ := ihy fun z hz => hy z (List.mem_cons_of_mem _ hz)
        refine ⟨members t ++ as, by rw [objects, ht, has]; rfl, fun a => ?_, fun _ => append_ne gt.ne⟩
        rw [leavesAll, List.mem_append, List.mem_append, gt.mem, hm]
    obtain ⟨as, has, hm, hn⟩ := key xs ih
    obtain ⟨t, ht, gt, -⟩ := makeUnion_good (hn hne)
    refine ⟨t, ?_, ⟨fun a => by rw [gt.mem, hm, leaves], gt.nodup, gt.ne, gt.two⟩⟩
    rw [object, has]
    exact ht

/-- No union of classes comes from type variables. -/
theorem object_bar {x : Written} {t : Ty} (h : object x = .ok t) (bs : List Atom) (hb : t = .bar bs) : ∀ b ∈ bs, ∃ n, b = .cls n := by
  induction x using Written.rec (motive_2 := fun _ => True) generalizing t bs with
  | atom a => rw [object] at h; cases h; cases hb
  | or x y ihx ihy =>
    rw [object] at h
    cases hx : object x with
    | error e => rw [hx] at h; cases h
    | ok s =>
      cases hy : object y with
      | error e => rw [hx, hy] at h; cases h
      | ok u =>
        rw [hx, hy] at h
        have h' : or s u = .ok t := h
        unfold or at h'
        split at h'
        · unfold makeUnion at h'
          split at h'
          · cases h'
          · cases h'; cases hb
          · cases h'; cases hb
        · rename_i hty
          simp only [Bool.or_eq_true, not_or, Bool.not_eq_true] at hty
          cases h'
          have hmem : ∀ (w : Ty), typing w = false → (∀ as, w = .bar as → ∀ b ∈ as, ∃ n, b = Atom.cls n) →
              ∀ b ∈ members w, ∃ n, b = Atom.cls n := by
            intro w hw hbar b hbw
            cases w with
            | atom a =>
              cases a with
              | var n => cases hw
              | cls n => rw [members, List.mem_singleton] at hbw; exact ⟨n, hbw⟩
            | union as => cases hw
            | bar as => exact hbar as rfl b hbw
          intro b hbm
          have hbd : b ∈ dedup (members s ++ members u) := by
            unfold makeBar at hb
            split at hb
            · cases hb
            · cases hb; exact hbm
          rw [mem_dedup, List.mem_append] at hbd
          rcases hbd with hbd | hbd
          · exact hmem s hty.1 (fun as ha => ihx hx as ha) b hbd
          · exact hmem u hty.2 (fun as ha => ihy hy as ha) b hbd
  | union xs _ =>
    rw [object] at h
    cases hx : objects xs with
    | error e => rw [hx] at h; cases h
    | ok as =>
      rw [hx] at h
      have h' : makeUnion as = .ok t := h
      unfold makeUnion at h'
      split at h'
      · cases h'
      · cases h'; cases hb
      · cases h'; cases hb
  | nil => trivial
  | cons x xs _ _ => trivial

/-- Unions of type variables, written in any way, are accepted, and the scope is the set of the type variables that are written. -/
theorem C118_variables (x : Written) (h : NoEmpty x) (hv : ∀ a ∈ leaves x, ∃ n, a = .var n) :
    ∃ s, scopeOf x = .ok s ∧ s.Nodup ∧ ∀ a, a ∈ s ↔ a ∈ leaves x := by
  obtain ⟨t, ht, g⟩ := object_good h
  have hs : ∀ r, classGetitem (.inr t) = r → scopeOf x = r := fun r hr => by rw [scopeOf, ht]; exact hr
  cases t with
  | atom a =>
    obtain ⟨n, rfl⟩ := hv a ((g.mem a).1 (by simp [members]))
    exact ⟨[.var n], hs _ rfl, g.nodup, g.mem⟩
  | union as =>
    refine ⟨as, hs _ ?_, g.nodup, g.mem⟩
    have hne : as ≠ [] := g.ne
    rw [classGetitem, if_neg (by simpa using hne)]
  | bar as =>
    obtain ⟨a, ha⟩ := List.exists_mem_of_ne_nil as g.ne
    obtain ⟨n, hn⟩ := object_bar ht as rfl a ha
    obtain ⟨k, hk⟩ := hv a ((g.mem a).1 ha)
    rw [hn] at hk
    cases hk

/-- The order, repetitions and nesting do not matter, and `Scoped[x | y]` is the union of `Scoped[x]` and `Scoped[y]`. -/
theorem C118_union (x y : Written) (hx : NoEmpty x) (hy : NoEmpty y) (hvx : ∀ a ∈ leaves x, ∃ n, a = .var n)
    (hvy : ∀ a ∈ leaves y, ∃ n, a = .var n) :
    ∃ s t u, scopeOf x = .ok s ∧ scopeOf y = .ok t ∧ scopeOf (.or x y) = .ok u ∧ ∀ a, a ∈ u ↔ a ∈ s ∨ a ∈ t := by
  obtain ⟨s, hs, -, ms⟩ := C118_variables x hx hvx
  obtain ⟨t, ht, -, mt⟩ := C118_variables y hy hvy
  obtain ⟨u, hu, -, mu⟩ := C118_variables (.or x y) (.or x y hx hy) fun a ha => by
    rw [leaves, List.mem_append] at ha
    exact ha.elim (hvx a) (hvy a)
  exact ⟨s, t, u, hs, ht, hu, fun a => by rw [mu, ms, mt, leaves, List.mem_append]⟩

theorem classes_typing {x : Written} (h : Classes x) : ∃ t, object x = .ok t ∧ typing t = false := by
  induction h with
  | atom n => exact ⟨_, by rw [object], rfl⟩
  | or x y hx hy ihx ihy =>
    obtain ⟨s, hs, ts⟩ := ihx
    obtain ⟨t, ht, tt⟩ := ihy
    have hor : object (.or x y) = .ok (makeBar (members s ++ members t)) := by
      rw [object, hs, ht]
      show or s t = _
      rw [or, ts, tt]
      rfl
    refine ⟨_, hor, ?_⟩
    have hne : NoEmpty (.or x y) := by
      have : ∀ {z : Written}, Classes z → NoEmpty z := fun hz => by
        induction hz with
        | atom n => exact .atom _
        | or x y _ _ h1 h2 => exact .or x y h1 h2
      exact .or x y (this hx) (this hy)
    have hl : ∀ {z : Written}, Classes z → ∀ a ∈ leaves z, ∃ n, a = .cls n := fun hz => by
      induction hz with
      | atom n => intro a ha; rw [leaves, List.mem_singleton] at ha; exact ⟨n, ha⟩
      | or x y _ _ h1 h2 =>
        intro a ha
        rw [leaves, List.mem_append] at ha
        exact ha.elim (h1 a) (h2 a)
    obtain ⟨t', ht', g⟩ := object_good hne
    rw [hor] at ht'
    cases ht'
    generalize hw : makeBar (members s ++ members t) = w at g ⊢
    cases w with
    | atom a =>
      obtain ⟨n, rfl⟩ := hl (.or x y hx hy) a ((g.mem a).1 (by simp [members]))
      rfl
    | union as =>
      unfold makeBar at hw
      split at hw <;> cases hw
    | bar as => rfl

/-- Classes and unions of classes written with `|` are rejected. -/
theorem C118_rejects_partial (x : Written) (h : Classes x) : scopeOf x = .error .type := by
  obtain ⟨t, ht, hty⟩ := classes_typing h
  rw [scopeOf, ht]
  show classGetitem (.inr t) = _
  cases t with
  | atom a =>
    cases a with
    | var n => cases hty
    | cls n => rfl
  | union as => cases hty
  | bar as => rfl

/-- What is accepted: exactly expressions with one type variable only, and those whose object is a `typing.Union`; the scope has
all members, whatever they are. -/
theorem C118_accepted (x : Written) (h : NoEmpty x) (s : List Atom) :
    scopeOf x = .ok s ↔ (∃ n, object x = .ok (.atom (.var n)) ∧ s = [.var n]) ∨ object x = .ok (.union s) := by
  obtain ⟨t, ht, g⟩ := object_good h
  have hs : scopeOf x = classGetitem (.inr t) := by rw [scopeOf, ht]; rfl
  rw [hs, ht]
  cases t with
  | atom a =>
    cases a with
    | var n =>
      rw [classGetitem]
      constructor
      · intro hh; cases hh; exact Or.inl ⟨n, rfl, rfl⟩
      · rintro (⟨k, hk, rfl⟩ | hk)
        · cases hk; rfl
        · cases hk
    | cls n =>
      constructor
      · intro hh; cases hh
      · rintro (⟨k, hk, -⟩ | hk) <;> cases hk
  | union as =>
    have hne : as ≠ [] := g.ne
    rw [classGetitem, if_neg (by simpa using hne)]
    constructor
    · intro hh; cases hh; exact Or.inr rfl
    · rintro (⟨k, hk, -⟩ | hk)
      · cases hk
      · cases hk; rfl
  | bar as =>
    constructor
    · intro hh; cases hh
    · rintro (⟨k, hk, -⟩ | hk) <;> cases hk

/-! ## Where it fails -/

/-- A union of a type variable and anything is accepted, with the other type as part of the scope. -/
theorem C118_mixed_fails (n k : Nat) : scopeOf (.or (.atom (.var n)) (.atom (.cls k))) = .ok [.var n, .cls k] := by
  simp [scopeOf, object, or, typing, members, makeUnion, dedup, classGetitem, bind, Except.bind]

/-- `Scoped[int | str]` raises, `Scoped[Union[int, str]]` does not. -/
theorem C118_typing_fails (n k : Nat) (h : n ≠ k) :
    scopeOf (.or (.atom (.cls n)) (.atom (.cls k))) = .error .type ∧
    scopeOf (.union [.atom (.cls n), .atom (.cls k)]) = .ok [.cls n, .cls k] := by
  refine ⟨C118_rejects_partial _ (.or _ _ (.atom n) (.atom k)), ?_⟩
  have h' : k ≠ n := fun e => h e.symm
  simp [scopeOf, object, objects, members, makeUnion, dedup, classGetitem, bind, Except.bind, h']

/-! ## Examples -/

/-- `Except` results can be compared. -/
def okIs (r : Except Error (List Atom)) (s : List Atom) : Bool :=
  match r with
  | .ok t => t == s
  | .error _ => false

example : okIs (scopeOf (.or (.atom (.var 0)) (.or (.atom (.var 1)) (.atom (.var 0))))) [.var 0, .var 1] = true := by decide +kernel
example : okIs (scopeOf (.union [.or (.atom (.var 1)) (.atom (.var 2)), .atom (.var 1)])) [.var 1, .var 2] = true := by decide +kernel
example : okIs (scopeOf (.or (.atom (.var 0)) (.atom (.var 0)))) [.var 0] = true := by decide +kernel
example : okIs (scopeOf (.or (.or (.atom (.cls 0)) (.atom (.cls 1))) (.atom (.var 0)))) [.cls 0, .cls 1, .var 0] = true := by decide +kernel
example : object (.union []) = .error .type := by simp [object, objects, makeUnion, dedup, bind, Except.bind]
example : classGetitem (.inl [.atom (.var 0), .atom (.var 1)]) = .error .assertion := rfl
example : NoEmpty (.or (.atom (.var 0)) (.atom (.var 1))) ∧ ∀ a ∈ leaves (.or (.atom (.var 0)) (.atom (.var 1))), ∃ n, a = .var n := by
  refine ⟨.or _ _ (.atom _) (.atom _), fun a ha => ?_⟩
  simp only [leaves, List.cons_append, List.nil_append, List.mem_cons, List.not_mem_nil, or_false] at ha
  rcases ha with rfl | rfl
  · exact ⟨0, rfl⟩
  · exact ⟨1, rfl⟩

end Verif.Scoped.Syntax
