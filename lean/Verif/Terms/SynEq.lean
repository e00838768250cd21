import Verif.Terms.Beta

/-!
# syntactic_eq

Model of `syntactic_eq` (`ops/syntax.py` 780-890) and property C20.
-/

namespace Verif.Terms

/-- What the comparison depends on. -/
structure EqEnv where
  /-- `==` on the plain values -/
  veq : Nat → Nat → Bool
  /-- the value that is an item of a bytes object -/
  int : Nat → Nat
  /-- the result of `x == t` for a term `t` and an `x` that is no term: Python calls the reflected
  method `t.__eq__(x)`, which for number terms is an operation (`ops/syntax.py` 1125-1130) -/
  hook : Expr → Expr → Bool

/-- No interpretation of `__eq__` is installed: then the reflected method is
`syntactic_eq(t, x)`, which is false. -/
def EqEnv.Quiet (E : EqEnv) : Prop := ∀ x y, E.hook x y = false

/-- The items of a `collections.abc.Sequence` that is no named tuple; this includes strings and bytes
objects. -/
def items (E : EqEnv) : Expr → Option (List Expr)
  | .node (.seq _) ys => some ys
  | .atom (.str s) => some (s.map (fun c => .atom (.str [c])))
  | .atom (.bytes b) => some (b.map (fun c => .atom (.val (E.int c))))
  | _ => none

/-- `d.get(k)` for a flat list of keys and values. -/
def dictGet (k : Expr) : List Expr → Option Expr
  | k' :: v :: rest => if k' = k then some v else dictGet k rest
  | _ => none

mutual

/-- `syntactic_eq(x, other)` (`ops/syntax.py` 780-890). Dataclasses and named tuples of the same class
have the same fields. Simplified: keys of mappings and members of sets are compared structurally, and
values are not both terms and sequences. -/
def synEq (E : EqEnv) : Expr → Expr → Bool
  | .atom (.val m), .atom (.val n) => E.veq m n
  | .atom a, .atom b => decide (a = b)
  | .op o, .op p => decide (o = p)
  | .node (.data c fs) xs, .node (.data d gs) ys => decide (c = d ∧ fs = gs) && synEqs E xs ys
  | .node (.term o sl) xs, .node (.term p sl') ys =>
    decide (o = p) && (kwArgs sl' ys).all (fun e => (kwArgs sl xs).any (fun e' => e'.1 = e.1)) &&
      synArgs E sl xs (posArgs sl' ys) (kwArgs sl' ys)
  | .node (.map _) xs, .node (.map _) ys =>
    (keys ys).all (fun k => (keys xs).contains k) && synMap E xs ys
  | .node (.named c fs) xs, .node (.named d gs) ys => decide (c = d ∧ fs = gs) && synEqs E xs ys
  | .node (.seq _) xs, y =>
    match items E y with
    | some ys => synEqs E xs ys
    | none => false
  | .node .set xs, .node .set ys =>
    xs.all (fun x => ys.contains x) && ys.all (fun y => xs.contains y)
  | .atom a, .node (.term o sl) ys => E.hook (.atom a) (.node (.term o sl) ys)
  | .op p, .node (.term o sl) ys => E.hook (.op p) (.node (.term o sl) ys)
  | .node .set xs, .node (.term o sl) ys => E.hook (.node .set xs) (.node (.term o sl) ys)
  | .node (.data c fs) xs, .node (.term o sl) ys =>
    E.hook (.node (.data c fs) xs) (.node (.term o sl) ys)
  | _, _ => false
termination_by structural x => x

/-- Lists of the same length, element by element. -/
def synEqs (E : EqEnv) : List Expr → List Expr → Bool
  | [], [] => true
  | x :: xs, y :: ys => synEq E x y && synEqs E xs ys
  | _, _ => false
termination_by structural xs => xs

/-- The arguments of a term against the positional and keyword arguments of another. -/
def synArgs (E : EqEnv) : List Slot → List Expr → List Expr → List (String × Expr) → Bool
  | .pos :: sl, x :: xs, p :: ps, kw => synEq E x p && synArgs E sl xs ps kw
  | .kw k :: sl, x :: xs, ps, kw =>
    (match kw.lookup k with
     | some y => synEq E x y
     | none => false) && synArgs E sl xs ps kw
  | [], [], [], _ => true
  | _, _, _, _ => false
termination_by structural _ xs => xs

/-- The pairs of a mapping against another mapping. -/
def synMap (E : EqEnv) : List Expr → List Expr → Bool
  | k :: v :: rest, ys =>
    (match dictGet k ys with
     | some w => synEq E v w
     | none => false) && synMap E rest ys
  | _, _ => true
termination_by structural xs => xs

end

/-! ## Specification -/

/-- The pairs of a flat list of keys and values. -/
def pairsOf : List Expr → List (Expr × Expr)
  | k :: v :: rest => (k, v) :: pairsOf rest
  | _ => []

/-- Values as they exist in Python: keys of mappings and names of keyword arguments are distinct. -/
inductive Val : Expr → Prop where
  | atom (a) : Val (.atom a)
  | op (o) : Val (.op o)
  | term {o sl xs} : sl.length = xs.length → ((kwArgs sl xs).map (·.1)).Nodup → (∀ x ∈ xs, Val x) →
      Val (.node (.term o sl) xs)
  | map {k xs} : Pairs xs → (keys xs).Nodup → (∀ x ∈ xs, Val x) → Val (.node (.map k) xs)
  | node {t xs} : (∀ o sl, t ≠ .term o sl) → (∀ k, t ≠ .map k) → (∀ x ∈ xs, Val x) →
      Val (.node t xs)

/-- The documented meaning of `syntactic_eq`. With `s = true` there is one more rule: a sequence is
compared with a string or bytes object item by item. -/
inductive Same (E : EqEnv) (s : Bool) : Expr → Expr → Prop where
  | val {m n} : E.veq m n = true → Same E s (.atom (.val m)) (.atom (.val n))
  | atom {a} : (∀ n, a ≠ .val n) → Same E s (.atom a) (.atom a)
  | op (o) : Same E s (.op o) (.op o)
  /-- same operation, equal positional arguments, equal keyword arguments in any order -/
  | term {o sl sl' xs ys} :
      (posArgs sl xs).length = (posArgs sl' ys).length →
      (∀ (i : Nat) x y, (posArgs sl xs)[i]? = some x → (posArgs sl' ys)[i]? = some y →
        Same E s x y) →
      (∀ k, (∃ x, (k, x) ∈ kwArgs sl xs) ↔ ∃ y, (k, y) ∈ kwArgs sl' ys) →
      (∀ k x y, (k, x) ∈ kwArgs sl xs → (k, y) ∈ kwArgs sl' ys → Same E s x y) →
      Same E s (.node (.term o sl) xs) (.node (.term o sl') ys)
  /-- sequences of any type, in order -/
  | seq {j k xs ys} : xs.length = ys.length →
      (∀ (i : Nat) x y, xs[i]? = some x → ys[i]? = some y → Same E s x y) →
      Same E s (.node (.seq j) xs) (.node (.seq k) ys)
  /-- named tuples and dataclasses of the same class -/
  | record {t xs ys} : (∃ c fs, t = .named c fs) ∨ (∃ c fs, t = .data c fs) →
      xs.length = ys.length →
      (∀ (i : Nat) x y, xs[i]? = some x → ys[i]? = some y → Same E s x y) →
      Same E s (.node t xs) (.node t ys)
  /-- mappings of any type, by key -/
  | map {j k xs ys} : (∀ k, (∃ x, (k, x) ∈ pairsOf xs) ↔ ∃ y, (k, y) ∈ pairsOf ys) →
      (∀ k x y, (k, x) ∈ pairsOf xs → (k, y) ∈ pairsOf ys → Same E s x y) →
      Same E s (.node (.map j) xs) (.node (.map k) ys)
  | set {xs ys} : (∀ x, x ∈ xs ↔ x ∈ ys) → Same E s (.node .set xs) (.node .set ys)
  | text {j xs a ys} : s = true → items E (.atom a) = some ys → xs.length = ys.length →
      (∀ (i : Nat) x y, xs[i]? = some x → ys[i]? = some y → Same E s x y) →
      Same E s (.node (.seq j) xs) (.atom a)

/-! ## Characterisation -/

theorem synEqs_iff {E : EqEnv} {xs ys : List Expr} : synEqs E xs ys = true ↔
    xs.length = ys.length ∧
      ∀ (i : Nat) x y, xs[i]? = some x → ys[i]? = some y → synEq E x y = true := by
  induction xs generalizing ys with
  | nil => cases ys <;> simp [synEqs]
  | cons x xs ih =>
    cases ys with
    | nil => simp [synEqs]
    | cons y ys =>
      simp only [synEqs, Bool.and_eq_true, ih, List.length_cons, Nat.add_right_cancel_iff]
      constructor
      · rintro ⟨h1, h2, h3⟩
        refine ⟨h2, ?_⟩
        intro i
        cases i with
        | zero =>
          intro a b ha hb
          simp at ha hb
          subst ha; subst hb; exact h1
        | succ i => intro a b ha hb; exact h3 i a b (by simpa using ha) (by simpa using hb)
      · rintro ⟨h2, h3⟩
        exact ⟨h3 0 x y rfl rfl, h2, fun i a b ha hb => h3 (i + 1) a b (by simpa using ha)
          (by simpa using hb)⟩

theorem lookup_iff {α : Type} {l : List (String × α)} (h : (l.map (·.1)).Nodup) (k : String)
    (v : α) : l.lookup k = some v ↔ (k, v) ∈ l := by
  induction l with
  | nil => simp
  | cons e l ih =>
    obtain ⟨k', v'⟩ := e
    simp only [List.map_cons, List.nodup_cons] at h
    rw [List.lookup_cons]
    by_cases e : k = k'
    · subst e
      simp only [beq_self_eq_true, List.mem_cons, Prod.mk.injEq, true_and]
      constructor
      · intro e; left; simpa using e.symm
      · rintro (e | e)
        · rw [e]
        · exact absurd (List.mem_map.2 ⟨_, e, rfl⟩) h.1
    · have : (k == k') = false := by simpa using e
      simp [this, ih h.2, e]

theorem dictGet_iff {d : List Expr} (hp : Pairs d) (h : (keys d).Nodup) (k v : Expr) :
    dictGet k d = some v ↔ (k, v) ∈ pairsOf d := by
  have hk : ∀ {d : List Expr}, Pairs d → ∀ k v, (k, v) ∈ pairsOf d → k ∈ keys d := by
    intro d hp
    induction hp with
    | nil => intro k v h; cases h
    | cons _ ih =>
      intro k v h
      simp only [pairsOf, List.mem_cons, Prod.mk.injEq] at h
      simp only [keys, List.mem_cons]
      rcases h with ⟨rfl, rfl⟩ | h
      · exact .inl rfl
      · exact .inr (ih k v h)
  induction hp with
  | nil => simp [dictGet, pairsOf]
  | @cons k' v' rest hp ih =>
    simp only [keys, List.nodup_cons] at h
    rw [dictGet]
    by_cases e : k' = k
    · subst e
      simp only [if_true, Option.some.injEq, pairsOf, List.mem_cons, Prod.mk.injEq, true_and]
      constructor
      · intro e; exact .inl e.symm
      · rintro (e | e)
        · exact e.symm
        · exact absurd (hk hp _ _ e) h.1
    · rw [if_neg e]
      refine (ih h.2).trans ?_
      simp only [pairsOf, List.mem_cons, Prod.mk.injEq]
      constructor
      · exact .inr
      · rintro (⟨rfl, _⟩ | h)
        · exact absurd rfl e
        · exact h

theorem keys_iff {d : List Expr} (hp : Pairs d) (k : Expr) :
    k ∈ keys d ↔ ∃ v, (k, v) ∈ pairsOf d := by
  induction hp with
  | nil => simp [keys, pairsOf]
  | @cons k' v' rest hp ih =>
    simp only [keys, pairsOf, List.mem_cons, ih, Prod.mk.injEq]
    constructor
    · rintro (rfl | ⟨v, h⟩)
      · exact ⟨v', .inl ⟨rfl, rfl⟩⟩
      · exact ⟨v, .inr h⟩
    · rintro ⟨v, ⟨rfl, _⟩ | h⟩
      · exact .inl rfl
      · exact .inr ⟨v, h⟩

theorem synMap_iff {E : EqEnv} {xs ys : List Expr} (hx : Pairs xs) (hy : Pairs ys)
    (hn : (keys ys).Nodup) : synMap E xs ys = true ↔
      ∀ k v, (k, v) ∈ pairsOf xs → ∃ w, (k, w) ∈ pairsOf ys ∧ synEq E v w = true := by
  induction hx with
  | nil => simp [synMap, pairsOf]
  | @cons k v rest hx ih =>
    simp only [synMap, Bool.and_eq_true, ih, pairsOf, List.mem_cons, Prod.mk.injEq]
    have : (match dictGet k ys with
      | some w => synEq E v w
      | none => false) = true ↔ ∃ w, (k, w) ∈ pairsOf ys ∧ synEq E v w = true := by
      constructor
      · intro h
        cases hg : dictGet k ys with
        | none => rw [hg] at h; cases h
        | some w =>
          rw [hg] at h
          exact ⟨w, (dictGet_iff hy hn k w).1 hg, h⟩
      · rintro ⟨w, h1, h2⟩
        rw [(dictGet_iff hy hn k w).2 h1]
        exact h2
    rw [this]
    constructor
    · rintro ⟨h1, h2⟩ k' v' (⟨rfl, rfl⟩ | h)
      · exact h1
      · exact h2 k' v' h
    · intro h
      exact ⟨h k v (.inl ⟨rfl, rfl⟩), fun k' v' h' => h k' v' (.inr h')⟩

theorem synArgs_iff {E : EqEnv} {sl : List Slot} {xs ps : List Expr} {kw : List (String × Expr)}
    (hl : sl.length = xs.length) (hn : (kw.map (·.1)).Nodup) :
    synArgs E sl xs ps kw = true ↔
      ((posArgs sl xs).length = ps.length ∧
        ∀ (i : Nat) x y, (posArgs sl xs)[i]? = some x → ps[i]? = some y → synEq E x y = true) ∧
      ∀ k v, (k, v) ∈ kwArgs sl xs → ∃ w, (k, w) ∈ kw ∧ synEq E v w = true := by
  rw [← synEqs_iff]
  induction sl generalizing xs ps with
  | nil =>
    cases xs with
    | nil => cases ps <;> simp [synArgs, posArgs, kwArgs, synEqs]
    | cons => simp at hl
  | cons a sl ih =>
    cases xs with
    | nil => simp at hl
    | cons x xs =>
      simp only [List.length_cons, Nat.add_right_cancel_iff] at hl
      cases a with
      | pos =>
        cases ps with
        | nil => simp [synArgs, posArgs, synEqs]
        | cons p ps =>
          simp only [synArgs, posArgs, kwArgs, synEqs, Bool.and_eq_true, ih hl, and_assoc]
      | kw k =>
        have : (match kw.lookup k with
          | some y => synEq E x y
          | none => false) = true ↔ ∃ w, (k, w) ∈ kw ∧ synEq E x w = true := by
          constructor
          · intro h
            cases hg : kw.lookup k with
            | none => rw [hg] at h; cases h
            | some w => rw [hg] at h; exact ⟨w, (lookup_iff hn k w).1 hg, h⟩
          · rintro ⟨w, h1, h2⟩
            rw [(lookup_iff hn k w).2 h1]
            exact h2
        simp only [synArgs, posArgs, kwArgs, Bool.and_eq_true, ih hl, this, List.mem_cons,
          Prod.mk.injEq]
        constructor
        · rintro ⟨h1, h2, h3⟩
          refine ⟨h2, ?_⟩
          rintro k' v' (⟨rfl, rfl⟩ | h)
          · exact h1
          · exact h3 k' v' h
        · rintro ⟨h2, h3⟩
          exact ⟨h3 k x (.inl ⟨rfl, rfl⟩), h2, fun k' v' h => h3 k' v' (.inr h)⟩

theorem posArgs_mem {sl : List Slot} {xs : List Expr} {x : Expr} (h : x ∈ posArgs sl xs) :
    x ∈ xs := by
  induction sl generalizing xs with
  | nil => cases xs <;> simp [posArgs] at h
  | cons a sl ih =>
    cases xs with
    | nil => cases a <;> simp [posArgs] at h
    | cons y ys =>
      cases a with
      | pos =>
        simp only [posArgs, List.mem_cons] at h
        rcases h with rfl | h
        · exact List.mem_cons_self
        · exact List.mem_cons_of_mem _ (ih h)
      | kw k => exact List.mem_cons_of_mem _ (ih h)

theorem kwArgs_mem {sl : List Slot} {xs : List Expr} {k : String} {x : Expr}
    (h : (k, x) ∈ kwArgs sl xs) : x ∈ xs := by
  induction sl generalizing xs with
  | nil => cases xs <;> simp [kwArgs] at h
  | cons a sl ih =>
    cases xs with
    | nil => cases a <;> simp [kwArgs] at h
    | cons y ys =>
      cases a with
      | pos => exact List.mem_cons_of_mem _ (ih h)
      | kw k' =>
        simp only [kwArgs, List.mem_cons, Prod.mk.injEq] at h
        rcases h with ⟨_, rfl⟩ | h
        · exact List.mem_cons_self
        · exact List.mem_cons_of_mem _ (ih h)

theorem pairsOf_mem {d : List Expr} (hp : Pairs d) {k v : Expr} (h : (k, v) ∈ pairsOf d) :
    v ∈ d := by
  induction hp with
  | nil => cases h
  | cons _ ih =>
    simp only [pairsOf, List.mem_cons, Prod.mk.injEq] at h
    rcases h with ⟨_, rfl⟩ | h
    · simp
    · exact List.mem_cons_of_mem _ (List.mem_cons_of_mem _ (ih h))

theorem pairsOf_fun {d : List Expr} (hp : Pairs d) (hn : (keys d).Nodup) {k v w : Expr}
    (h : (k, v) ∈ pairsOf d) (h' : (k, w) ∈ pairsOf d) : v = w := by
  have a := (dictGet_iff hp hn k v).2 h
  rw [(dictGet_iff hp hn k w).2 h'] at a
  exact (Option.some.inj a).symm

theorem kwArgs_fun {sl : List Slot} {xs : List Expr} (hn : ((kwArgs sl xs).map (·.1)).Nodup)
    {k : String} {v w : Expr} (h : (k, v) ∈ kwArgs sl xs) (h' : (k, w) ∈ kwArgs sl xs) : v = w := by
  have a := (lookup_iff hn k v).2 h
  rw [(lookup_iff hn k w).2 h'] at a
  exact (Option.some.inj a).symm

/-- The children of a value are values. -/
theorem Val.child {t : Tag} {xs : List Expr} (h : Val (.node t xs)) : ∀ x ∈ xs, Val x := by
  cases h with
  | term _ _ h => exact h
  | map _ _ h => exact h
  | node _ _ h => exact h

theorem items_val {E : EqEnv} {y : Expr} {ys : List Expr} (h : items E y = some ys) (hy : Val y) :
    ∀ x ∈ ys, Val x := by
  cases y with
  | atom a =>
    cases a with
    | str s =>
      simp only [items, Option.some.injEq] at h
      subst h
      intro x hx
      obtain ⟨c, _, rfl⟩ := List.mem_map.1 hx
      exact .atom _
    | bytes s =>
      simp only [items, Option.some.injEq] at h
      subst h
      intro x hx
      obtain ⟨c, _, rfl⟩ := List.mem_map.1 hx
      exact .atom _
    | val n => cases h
  | op o => cases h
  | node t zs =>
    cases t with
    | seq k =>
      simp only [items, Option.some.injEq] at h
      subst h
      exact hy.child
    | _ => cases h

/-- C20: on Python values, when `__eq__` of number terms is not handled, `syntactic_eq` is the
documented relation extended by the rule that a sequence is compared with a string or bytes object
item by item. -/
theorem C20_exact (E : EqEnv) (hE : E.Quiet) (x y : Expr) (hx : Val x) (hy : Val y) :
    synEq E x y = true ↔ Same E true x y := by
  induction x using Expr.ind generalizing y with
  | atom a =>
    cases y with
    | atom b =>
      constructor
      · intro h
        cases a with
        | val m =>
          cases b with
          | val n => exact .val (by simpa [synEq] using h)
          | _ => simp [synEq] at h
        | str s =>
          have e : Atom.str s = b := by simpa [synEq] using h
          subst e
          exact .atom (by simp)
        | bytes s =>
          have e : Atom.bytes s = b := by simpa [synEq] using h
          subst e
          exact .atom (by simp)
      · intro h
        cases h with
        | val h => simpa [synEq] using h
        | atom h =>
          cases a with
          | val n => exact absurd rfl (h n)
          | _ => simp [synEq]
    | op o => exact ⟨fun h => by cases a <;> simp [synEq] at h, fun h => by cases h⟩
    | node t ys =>
      refine ⟨fun h => ?_, fun h => by cases h⟩
      cases t <;> cases a <;> simp [synEq, hE _ _] at h
  | op o =>
    cases y with
    | atom b => exact ⟨fun h => by simp [synEq] at h, fun h => by cases h⟩
    | op p =>
      constructor
      · intro h
        have e : o = p := by simpa [synEq] using h
        subst e
        exact .op o
      · intro h; cases h; simp [synEq]
    | node t ys =>
      refine ⟨fun h => ?_, fun h => by cases h⟩
      cases t <;> simp [synEq, hE _ _] at h
  | node t xs ih =>
    have list : ∀ ys : List Expr, (∀ y ∈ ys, Val y) → (synEqs E xs ys = true ↔
        xs.length = ys.length ∧
          ∀ (i : Nat) x y, xs[i]? = some x → ys[i]? = some y → Same E true x y) := by
      intro ys hv
      rw [synEqs_iff]
      refine and_congr_right (fun _ => ?_)
      constructor
      · intro h i x y h1 h2
        have m1 := List.mem_of_getElem? h1
        have m2 := List.mem_of_getElem? h2
        exact (ih x m1 y (hx.child x m1) (hv y m2)).1 (h i x y h1 h2)
      · intro h i x y h1 h2
        have m1 := List.mem_of_getElem? h1
        have m2 := List.mem_of_getElem? h2
        exact (ih x m1 y (hx.child x m1) (hv y m2)).2 (h i x y h1 h2)
    cases t with
    | seq k =>
      cases hi : items E y with
      | none =>
        refine ⟨fun h => ?_, fun h => ?_⟩
        · simp [synEq, hi] at h
        · cases h with
          | seq => cases hi
          | record h =>
            rcases h with ⟨_, _, h⟩ | ⟨_, _, h⟩ <;> cases h
          | text _ h => rw [hi] at h; cases h
      | some ys =>
        have e : synEq E (.node (.seq k) xs) y = synEqs E xs ys := by
          simp [synEq, hi]
        rw [e, list ys (items_val hi hy)]
        constructor
        · rintro ⟨h1, h2⟩
          cases y with
          | atom a => exact .text rfl hi h1 h2
          | op o => cases hi
          | node u zs =>
            cases u with
            | seq j =>
              simp only [items, Option.some.injEq] at hi
              subst hi
              exact .seq h1 h2
            | _ => cases hi
        · intro h
          cases h with
          | seq h1 h2 =>
            simp only [items, Option.some.injEq] at hi
            subst hi
            exact ⟨h1, h2⟩
          | record h =>
            rcases h with ⟨_, _, h⟩ | ⟨_, _, h⟩ <;> cases h
          | text _ h h1 h2 =>
            rw [hi] at h
            simp only [Option.some.injEq] at h
            subst h
            exact ⟨h1, h2⟩
    | set =>
      cases y with
      | atom b => exact ⟨fun h => by simp [synEq] at h, fun h => by cases h⟩
      | op p => exact ⟨fun h => by simp [synEq] at h, fun h => by cases h⟩
      | node u ys =>
        cases u with
        | set =>
          constructor
          · intro h
            simp only [synEq, Bool.and_eq_true, List.all_eq_true, List.contains_iff_mem] at h
            exact .set (fun x => ⟨h.1 x, h.2 x⟩)
          · intro h
            cases h with
            | set h =>
              simp only [synEq, Bool.and_eq_true, List.all_eq_true, List.contains_iff_mem]
              exact ⟨fun x hx => (h x).1 hx, fun x hx => (h x).2 hx⟩
            | record h => rcases h with ⟨_, _, h⟩ | ⟨_, _, h⟩ <;> cases h
        | _ => exact ⟨fun h => by simp [synEq, hE _ _] at h, fun h => by cases h⟩
    | named c fs =>
      cases y with
      | atom b => exact ⟨fun h => by simp [synEq] at h, fun h => by cases h⟩
      | op p => exact ⟨fun h => by simp [synEq] at h, fun h => by cases h⟩
      | node u ys =>
        cases u with
        | named d gs =>
          have e : synEq E (.node (.named c fs) xs) (.node (.named d gs) ys) =
              (decide (c = d ∧ fs = gs) && synEqs E xs ys) := by rw [synEq]
          rw [e, Bool.and_eq_true, decide_eq_true_eq, list ys hy.child]
          constructor
          · rintro ⟨⟨rfl, rfl⟩, h1, h2⟩
            exact .record (.inl ⟨c, fs, rfl⟩) h1 h2
          · intro h
            cases h with
            | record _ h1 h2 => exact ⟨⟨rfl, rfl⟩, h1, h2⟩
        | _ => exact ⟨fun h => by simp [synEq] at h, fun h => by cases h⟩
    | data c fs =>
      cases y with
      | atom b => exact ⟨fun h => by simp [synEq] at h, fun h => by cases h⟩
      | op p => exact ⟨fun h => by simp [synEq] at h, fun h => by cases h⟩
      | node u ys =>
        cases u with
        | data d gs =>
          have e : synEq E (.node (.data c fs) xs) (.node (.data d gs) ys) =
              (decide (c = d ∧ fs = gs) && synEqs E xs ys) := by rw [synEq]
          rw [e, Bool.and_eq_true, decide_eq_true_eq, list ys hy.child]
          constructor
          · rintro ⟨⟨rfl, rfl⟩, h1, h2⟩
            exact .record (.inr ⟨c, fs, rfl⟩) h1 h2
          · intro h
            cases h with
            | record _ h1 h2 => exact ⟨⟨rfl, rfl⟩, h1, h2⟩
        | _ => exact ⟨fun h => by simp [synEq, hE _ _] at h, fun h => by cases h⟩
    | map k =>
      cases y with
      | atom b => exact ⟨fun h => by simp [synEq] at h, fun h => by cases h⟩
      | op p => exact ⟨fun h => by simp [synEq] at h, fun h => by cases h⟩
      | node u ys =>
        cases u with
        | map j =>
          have e : synEq E (.node (.map k) xs) (.node (.map j) ys) =
              ((keys ys).all (fun k => (keys xs).contains k) && synMap E xs ys) := by rw [synEq]
          cases hx with
          | node _ h _ => exact absurd rfl (h k)
          | map px nx cx =>
            cases hy with
            | node _ h _ => exact absurd rfl (h j)
            | map py ny cy =>
              rw [e, Bool.and_eq_true, List.all_eq_true, synMap_iff px py ny]
              constructor
              · rintro ⟨h1, h2⟩
                refine .map (fun k => ⟨?_, ?_⟩) ?_
                · rintro ⟨x, hm⟩
                  obtain ⟨w, hw, _⟩ := h2 k x hm
                  exact ⟨w, hw⟩
                · rintro ⟨w, hw⟩
                  have := h1 k ((keys_iff py k).2 ⟨w, hw⟩)
                  exact (keys_iff px k).1 (by simpa using this)
                · intro k v w hv hw
                  obtain ⟨w', hw', h'⟩ := h2 k v hv
                  rw [pairsOf_fun py ny hw hw']
                  have m := pairsOf_mem px hv
                  exact (ih v m w' (cx v m) (cy w' (pairsOf_mem py hw'))).1 h'
              · intro h
                cases h with
                | record h => rcases h with ⟨_, _, h⟩ | ⟨_, _, h⟩ <;> cases h
                | map h1 h2 =>
                  refine ⟨?_, ?_⟩
                  · intro k hk
                    have := (keys_iff px k).2 ((h1 k).2 ((keys_iff py k).1 hk))
                    simpa using this
                  · intro k v hv
                    obtain ⟨w, hw⟩ := (h1 k).1 ⟨v, hv⟩
                    have m := pairsOf_mem px hv
                    exact ⟨w, hw, (ih v m w (cx v m) (cy w (pairsOf_mem py hw))).2
                      (h2 k v w hv hw)⟩
        | _ => exact ⟨fun h => by simp [synEq] at h, fun h => by cases h⟩
    | term o sl =>
      cases y with
      | atom b => exact ⟨fun h => by simp [synEq] at h, fun h => by cases h⟩
      | op p => exact ⟨fun h => by simp [synEq] at h, fun h => by cases h⟩
      | node u ys =>
        cases u with
        | term p sl' =>
          have e : synEq E (.node (.term o sl) xs) (.node (.term p sl') ys) =
              (decide (o = p) &&
                (kwArgs sl' ys).all (fun e => (kwArgs sl xs).any (fun e' => e'.1 = e.1)) &&
                synArgs E sl xs (posArgs sl' ys) (kwArgs sl' ys)) := by rw [synEq]
          cases hx with
          | node h _ _ => exact absurd rfl (h o sl)
          | term lx nx cx =>
            cases hy with
            | node h _ _ => exact absurd rfl (h p sl')
            | term ly ny cy =>
              rw [e, Bool.and_eq_true, Bool.and_eq_true, List.all_eq_true, decide_eq_true_eq,
                synArgs_iff lx ny]
              constructor
              · rintro ⟨⟨rfl, h1⟩, ⟨h2, h3⟩, h4⟩
                refine .term h2 ?_ (fun k => ⟨?_, ?_⟩) ?_
                · intro i x y hx hy
                  have m := posArgs_mem (List.mem_of_getElem? hx)
                  exact (ih x m y (cx x m) (cy y (posArgs_mem (List.mem_of_getElem? hy)))).1
                    (h3 i x y hx hy)
                · rintro ⟨x, hm⟩
                  obtain ⟨w, hw, _⟩ := h4 k x hm
                  exact ⟨w, hw⟩
                · rintro ⟨w, hw⟩
                  have := h1 _ hw
                  rw [List.any_eq_true] at this
                  obtain ⟨⟨k', x⟩, hx, e⟩ := this
                  simp only [decide_eq_true_eq] at e
                  subst e
                  exact ⟨x, hx⟩
                · intro k v w hv hw
                  obtain ⟨w', hw', h'⟩ := h4 k v hv
                  rw [kwArgs_fun ny hw hw']
                  have m := kwArgs_mem hv
                  exact (ih v m w' (cx v m) (cy w' (kwArgs_mem hw'))).1 h'
              · intro h
                cases h with
                | record h => rcases h with ⟨_, _, h⟩ | ⟨_, _, h⟩ <;> cases h
                | term h1 h2 h3 h4 =>
                  refine ⟨⟨rfl, ?_⟩, ⟨h1, ?_⟩, ?_⟩
                  · rintro ⟨k, w⟩ hw
                    obtain ⟨x, hx⟩ := (h3 k).2 ⟨w, hw⟩
                    exact List.any_eq_true.2 ⟨_, hx, by simp⟩
                  · intro i x y hx hy
                    have m := posArgs_mem (List.mem_of_getElem? hx)
                    exact (ih x m y (cx x m) (cy y (posArgs_mem (List.mem_of_getElem? hy)))).2
                      (h2 i x y hx hy)
                  · intro k v hv
                    obtain ⟨w, hw⟩ := (h3 k).1 ⟨v, hv⟩
                    have m := kwArgs_mem hv
                    exact ⟨w, hw, (ih v m w (cx v m) (cy w (kwArgs_mem hw))).2 (h4 k v w hv hw)⟩
        | _ => exact ⟨fun h => by simp [synEq] at h, fun h => by cases h⟩

/-! ## Equivalence -/

/-- `==` on plain values is an equivalence relation (it is not reflexive for NaN). -/
structure EqEnv.Equiv (E : EqEnv) : Prop where
  refl : ∀ n, E.veq n n = true
  symm : ∀ m n, E.veq m n = true → E.veq n m = true
  trans : ∀ l m n, E.veq l m = true → E.veq m n = true → E.veq l n = true

theorem same_refl {E : EqEnv} {s : Bool} (hE : E.Equiv) {x : Expr} (hx : Val x) :
    Same E s x x := by
  induction hx with
  | atom a =>
    cases a with
    | val n => exact .val (hE.refl n)
    | _ => exact .atom (by simp)
  | op o => exact .op o
  | @term o sl xs _ hn _ ih =>
    refine .term rfl ?_ (fun k => Iff.rfl) ?_
    · intro i x y h1 h2
      rw [h1] at h2
      cases h2
      exact ih x (posArgs_mem (List.mem_of_getElem? h1))
    · intro k x y h1 h2
      rw [kwArgs_fun hn h2 h1]
      exact ih x (kwArgs_mem h1)
  | map hp hn _ ih =>
    refine .map (fun k => Iff.rfl) ?_
    intro k x y h1 h2
    rw [pairsOf_fun hp hn h2 h1]
    exact ih x (pairsOf_mem hp h1)
  | @node t xs h1 h2 _ ih =>
    have key : ∀ (i : Nat) x y, xs[i]? = some x → xs[i]? = some y → Same E s x y := by
      intro i x y h1 h2
      rw [h1] at h2
      cases h2
      exact ih x (List.mem_of_getElem? h1)
    cases t with
    | term o sl => exact absurd rfl (h1 o sl)
    | map k => exact absurd rfl (h2 k)
    | seq k => exact .seq rfl key
    | set => exact .set (fun _ => Iff.rfl)
    | named c fs => exact .record (.inl ⟨c, fs, rfl⟩) rfl key
    | data c fs => exact .record (.inr ⟨c, fs, rfl⟩) rfl key

theorem same_symm {E : EqEnv} (hE : E.Equiv) {x y : Expr} (h : Same E false x y) :
    Same E false y x := by
  induction h with
  | val h => exact .val (hE.symm _ _ h)
  | atom h => exact .atom h
  | op o => exact .op o
  | term h1 _ h3 _ ih1 ih2 =>
    exact .term h1.symm (fun i x y h h' => ih1 i y x h' h) (fun k => (h3 k).symm)
      (fun k x y h h' => ih2 k y x h' h)
  | seq h1 _ ih => exact .seq h1.symm (fun i x y h h' => ih i y x h' h)
  | record h h1 _ ih => exact .record h h1.symm (fun i x y h h' => ih i y x h' h)
  | map h1 _ ih => exact .map (fun k => (h1 k).symm) (fun k x y h h' => ih k y x h' h)
  | set h => exact .set (fun x => (h x).symm)
  | text h => cases h

theorem get_of_length {xs ys : List Expr} (h : xs.length = ys.length) {i : Nat} {x : Expr}
    (hx : xs[i]? = some x) : ∃ y, ys[i]? = some y := by
  have : i < xs.length := (List.getElem?_eq_some_iff.1 hx).1
  exact ⟨_, List.getElem?_eq_getElem (h ▸ this)⟩

theorem same_trans {E : EqEnv} {s : Bool} (hE : E.Equiv) {x y z : Expr} (h : Same E s x y)
    (h' : Same E s y z) : Same E s x z := by
  have list : ∀ {xs ys zs : List Expr}, xs.length = ys.length → ys.length = zs.length →
      (∀ (i : Nat) x y, xs[i]? = some x → ys[i]? = some y → ∀ {z}, Same E s y z → Same E s x z) →
      (∀ (i : Nat) y z, ys[i]? = some y → zs[i]? = some z → Same E s y z) →
      ∀ (i : Nat) x z, xs[i]? = some x → zs[i]? = some z → Same E s x z := by
    intro xs ys zs l1 l2 h1 h2 i x z hx hz
    obtain ⟨y, hy⟩ := get_of_length l1 hx
    exact h1 i x y hx hy (h2 i y z hy hz)
  induction h generalizing z with
  | val h =>
    cases h' with
    | val h' => exact .val (hE.trans _ _ _ h h')
    | atom h' => exact absurd rfl (h' _)
  | atom h =>
    cases h' with
    | val h' => exact absurd rfl (h _)
    | atom h' => exact .atom h
  | op o => cases h'; exact .op o
  | term h1 _ h3 _ ih1 ih2 =>
    cases h' with
    | record h => rcases h with ⟨_, _, h⟩ | ⟨_, _, h⟩ <;> cases h
    | term k1 k2 k3 k4 =>
      refine .term (h1.trans k1) (list h1 k1 ih1 k2) (fun k => (h3 k).trans (k3 k)) ?_
      intro k x z hx hz
      obtain ⟨y, hy⟩ := (h3 k).1 ⟨x, hx⟩
      exact ih2 k x y hx hy (k4 k y z hy hz)
  | seq h1 _ ih =>
    cases h' with
    | record h => rcases h with ⟨_, _, h⟩ | ⟨_, _, h⟩ <;> cases h
    | seq k1 k2 => exact .seq (h1.trans k1) (list h1 k1 ih k2)
    | text e hi k1 k2 => exact .text e hi (h1.trans k1) (list h1 k1 ih k2)
  | record h h1 _ ih =>
    cases h' with
    | record _ k1 k2 => exact .record h (h1.trans k1) (list h1 k1 ih k2)
    | _ => rcases h with ⟨_, _, h⟩ | ⟨_, _, h⟩ <;> cases h
  | map h1 _ ih =>
    cases h' with
    | record h => rcases h with ⟨_, _, h⟩ | ⟨_, _, h⟩ <;> cases h
    | map k1 k2 =>
      refine .map (fun k => (h1 k).trans (k1 k)) ?_
      intro k x z hx hz
      obtain ⟨y, hy⟩ := (h1 k).1 ⟨x, hx⟩
      exact ih k x y hx hy (k2 k y z hy hz)
  | set h =>
    cases h' with
    | record h => rcases h with ⟨_, _, h⟩ | ⟨_, _, h⟩ <;> cases h
    | set h' => exact .set (fun x => (h x).trans (h' x))
  | @text j xs a ys e hi h1 hs ih =>
    cases h' with
    | val h' => cases hi
    | atom h' => exact .text e hi h1 hs

theorem Same.weaken {E : EqEnv} {x y : Expr} (h : Same E false x y) : Same E true x y := by
  induction h with
  | val h => exact .val h
  | atom h => exact .atom h
  | op o => exact .op o
  | term h1 _ h3 _ ih1 ih2 => exact .term h1 ih1 h3 ih2
  | seq h1 _ ih => exact .seq h1 ih
  | record h h1 _ ih => exact .record h h1 ih
  | map h1 _ ih => exact .map h1 ih
  | set h => exact .set h
  | text h => cases h

/-- Comparison in both directions rules out the extra rule. -/
theorem same_both {E : EqEnv} {x y : Expr} (h : Same E true x y) (h' : Same E true y x) :
    Same E false x y := by
  induction h with
  | val h => exact .val h
  | atom h => exact .atom h
  | op o => exact .op o
  | term h1 _ h3 _ ih1 ih2 =>
    cases h' with
    | record h => rcases h with ⟨_, _, h⟩ | ⟨_, _, h⟩ <;> cases h
    | term k1 k2 k3 k4 =>
      exact .term h1 (fun i x y hx hy => ih1 i x y hx hy (k2 i y x hy hx)) h3
        (fun k x y hx hy => ih2 k x y hx hy (k4 k y x hy hx))
  | seq h1 _ ih =>
    cases h' with
    | record h => rcases h with ⟨_, _, h⟩ | ⟨_, _, h⟩ <;> cases h
    | seq k1 k2 => exact .seq h1 (fun i x y hx hy => ih i x y hx hy (k2 i y x hy hx))
  | record h h1 _ ih =>
    cases h' with
    | record _ k1 k2 => exact .record h h1 (fun i x y hx hy => ih i x y hx hy (k2 i y x hy hx))
    | _ => rcases h with ⟨_, _, h⟩ | ⟨_, _, h⟩ <;> cases h
  | map h1 _ ih =>
    cases h' with
    | record h => rcases h with ⟨_, _, h⟩ | ⟨_, _, h⟩ <;> cases h
    | map k1 k2 => exact .map h1 (fun k x y hx hy => ih k x y hx hy (k2 k y x hy hx))
  | set h => exact .set h
  | text => cases h'

/-- C20: `syntactic_eq` is reflexive. -/
theorem C20_reflexive (E : EqEnv) (hE : E.Quiet) (he : E.Equiv) (x : Expr) (hx : Val x) :
    synEq E x x = true :=
  (C20_exact E hE x x hx hx).2 (same_refl he hx)

/-- C20: `syntactic_eq` is transitive. -/
theorem C20_transitive (E : EqEnv) (hE : E.Quiet) (he : E.Equiv) (x y z : Expr) (hx : Val x)
    (hy : Val y) (hz : Val z) (h : synEq E x y = true) (h' : synEq E y z = true) :
    synEq E x z = true :=
  (C20_exact E hE x z hx hz).2
    (same_trans he ((C20_exact E hE x y hx hy).1 h) ((C20_exact E hE y z hy hz).1 h'))

/-- C20: two values are equal in both directions iff they are equal in the documented sense. -/
theorem C20_documented_partial (E : EqEnv) (hE : E.Quiet) (he : E.Equiv) (x y : Expr) (hx : Val x)
    (hy : Val y) : synEq E x y = true ∧ synEq E y x = true ↔ Same E false x y := by
  rw [C20_exact E hE x y hx hy, C20_exact E hE y x hy hx]
  exact ⟨fun h => same_both h.1 h.2, fun h => ⟨h.weaken, (same_symm he h).weaken⟩⟩

/-- No strings and no bytes objects. -/
inductive TextFree : Expr → Prop where
  | val (n) : TextFree (.atom (.val n))
  | op (o) : TextFree (.op o)
  | node {t xs} : (∀ x ∈ xs, TextFree x) → TextFree (.node t xs)

theorem same_textFree {E : EqEnv} {x y : Expr} (hy : Val y) (ht : TextFree y)
    (h : Same E true x y) : Same E false x y := by
  induction h with
  | val h => exact .val h
  | atom h => exact .atom h
  | op o => exact .op o
  | term h1 _ h3 _ ih1 ih2 =>
    cases ht with
    | node ht =>
      exact .term h1
        (fun i x y hx hy' =>
          have m := posArgs_mem (List.mem_of_getElem? hy')
          ih1 i x y hx hy' (hy.child y m) (ht y m)) h3
        (fun k x y hx hy' =>
          have m := kwArgs_mem hy'
          ih2 k x y hx hy' (hy.child y m) (ht y m))
  | seq h1 _ ih =>
    cases ht with
    | node ht =>
      exact .seq h1 (fun i x y hx hy' =>
        have m := List.mem_of_getElem? hy'
        ih i x y hx hy' (hy.child y m) (ht y m))
  | record h h1 _ ih =>
    cases ht with
    | node ht =>
      exact .record h h1 (fun i x y hx hy' =>
        have m := List.mem_of_getElem? hy'
        ih i x y hx hy' (hy.child y m) (ht y m))
  | @map j k xs ys h1 _ ih =>
    cases ht with
    | node ht =>
      have hp : Pairs ys := by
        cases hy with
        | map hp _ _ => exact hp
        | node _ h _ => exact absurd rfl (h k)
      exact .map h1 (fun k x y hx hy' =>
        have m := pairsOf_mem hp hy'
        ih k x y hx hy' (hy.child y m) (ht y m))
  | set h => exact .set h
  | text _ hi => cases ht; cases hi

/-- C20: on values without strings and bytes objects, `syntactic_eq` is symmetric and is the
documented relation. -/
theorem C20_symmetric_partial (E : EqEnv) (hE : E.Quiet) (he : E.Equiv) (x y : Expr) (hx : Val x)
    (hy : Val y) (tx : TextFree x) (ty : TextFree y) :
    (synEq E x y = true ↔ Same E false x y) ∧ synEq E x y = synEq E y x := by
  have h1 : ∀ {x y}, Val x → Val y → TextFree y → (synEq E x y = true ↔ Same E false x y) := by
    intro x y hx hy ty
    rw [C20_exact E hE x y hx hy]
    exact ⟨same_textFree hy ty, Same.weaken⟩
  refine ⟨h1 hx hy ty, ?_⟩
  rw [Bool.eq_iff_iff, h1 hx hy ty, h1 hy hx tx]
  exact ⟨same_symm he, same_symm he⟩

/-- Values compared by number. -/
def plainEq : EqEnv := ⟨fun m n => m == n, id, fun _ _ => false⟩

theorem plainEq_quiet : plainEq.Quiet := fun _ _ => rfl

theorem plainEq_equiv : plainEq.Equiv :=
  ⟨fun n => by simp [plainEq], fun m n h => by simp [plainEq] at *; omega,
    fun l m n h h' => by simp [plainEq] at *; omega⟩

/-- `["a", "b"]` and `"ab"`. -/
def listAB : Expr := .node (.seq .list) [.atom (.str [97]), .atom (.str [98])]

def strAB : Expr := .atom (.str [97, 98])

/-- C20 fails to be symmetric: `syntactic_eq(["a", "b"], "ab")` is True although strings should be
atoms, and `syntactic_eq("ab", ["a", "b"])` is False. -/
theorem C20_symmetric_fails : Val listAB ∧ Val strAB ∧
    synEq plainEq listAB strAB = true ∧ synEq plainEq strAB listAB = false := by
  refine ⟨.node (by simp) (by simp) ?_, .atom _, by decide, by decide⟩
  intro x hx
  simp only [List.mem_cons, List.not_mem_nil, or_false] at hx
  rcases hx with rfl | rfl <;> exact .atom _

/-- C20 fails if a handler of `__eq__` of number terms is installed: the documentation says that no
interpretation is used, but a number is compared with a term by calling that operation, so the
handler decides. -/
theorem C20_interpretation_used_fails (h : Expr → Expr → Bool) (n : Nat) (o : Op) :
    synEq { plainEq with hook := h } (.atom (.val n)) (.node (.term o []) []) =
      h (.atom (.val n)) (.node (.term o []) []) ∧
    ∃ h, synEq { plainEq with hook := h } (.atom (.val n)) (.node (.term o []) []) = true ∧
      synEq { plainEq with hook := h } (.node (.term o []) []) (.atom (.val n)) = false := by
  refine ⟨by simp [synEq], fun _ _ => true, by simp [synEq], by simp [synEq]⟩

/-- C20 fails to be reflexive for a value that is not equal to itself, as NaN. -/
theorem C20_nan_fails (E : EqEnv) (n : Nat) (h : E.veq n n = false) :
    synEq E (.atom (.val n)) (.atom (.val n)) = false := by
  simp [synEq, h]

/-- C20, example: `f(x(), a=1, b=2)` and `f(x(), b=2, a=1)`. -/
example : synEq plainEq
    (.node (.term ⟨9, 0⟩ [.pos, .kw "a", .kw "b"]) [call0 vx, .atom (.val 1), .atom (.val 2)])
    (.node (.term ⟨9, 0⟩ [.pos, .kw "b", .kw "a"]) [call0 vx, .atom (.val 2), .atom (.val 1)]) =
    true := by decide

/-- C20, example: `{"items": [x(), 2]}` and `{"items": (x(), 2)}`. -/
example : synEq plainEq
    (.node (.map .dict) [.atom (.str [1]), .node (.seq .list) [call0 vx, .atom (.val 2)]])
    (.node (.map .dict) [.atom (.str [1]), .node (.seq .tuple) [call0 vx, .atom (.val 2)]]) =
    true := by decide

/-- C20, example: different operations. -/
example : synEq plainEq (call0 vx) (call0 vy) = false := by decide

/-- C20, example: a term with fewer keyword arguments. -/
example : synEq plainEq (.node (.term fn []) []) (.node (.term fn [.kw "a"]) [.atom (.val 1)]) =
    false := by decide

end Verif.Terms
