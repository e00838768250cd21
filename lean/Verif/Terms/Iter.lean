/-!
# C97: iterators that are terms

Model of `_IterableTerm`, `_IteratorTerm`, `iter_` and `next_` (`ops/syntax.py` 753-777): of the defaults of the two operations, of
straight-line programs that use `iter` and `next` on streams that are given or are terms, and of `evaluate` on the terms that such
programs make (`ops/semantics.py` 169-173: arguments before the call, from left to right, nothing shared; the arguments are made by a generator,
so that `StopIteration` in an argument becomes `RuntimeError`).

Simplifications: objects are containers (each `iter` gives a new iterator), iterators (`iter` gives the iterator itself) and other
values. No handler of `iter_` or `next_` is installed. Results are trees of binary functions of the items.
-/

namespace Verif.Terms.Iter

variable {V : Type}

/-- Objects. -/
inductive Obj (V : Type) where
  /-- a container with its items -/
  | items (l : List V)
  /-- an iterator, by its address -/
  | it (a : Nat)
  | val (v : V)

inductive Err where
  /-- `TypeError` -/
  | type
  /-- `StopIteration` -/
  | stop
  /-- `RuntimeError` -/
  | runtime
deriving DecidableEq

/-- What is left of each iterator. -/
abbrev Heap (V : Type) := List (List V)

abbrev Out (V α : Type) := Except Err α × Heap V

/-- `iter(self)`, the default of `iter_` on objects that are no terms (`ops/syntax.py` 760-761). -/
def iterObj : Obj V → Heap V → Out V (Obj V)
  | .items l, h => (.ok (.it h.length), h ++ [l])
  | .it a, h => (.ok (.it a), h)
  | .val _, h => (.error .type, h)

/-- `next(self)`, the default of `next_` on objects that are no terms (`ops/syntax.py` 770-771). -/
def nextObj : Obj V → Heap V → Out V (Obj V)
  | .it a, h =>
    match h[a]? with
    | some (x :: l) => (.ok (.val x), h.set a l)
    | some [] => (.error .stop, h)
    | none => (.error .type, h)
  | _, h => (.error .type, h)

/-- Terms. On terms both operations raise `NotHandled` (762-763, 772-773), which gives a term. -/
inductive Tm where
  /-- `xs()` for the variable `xs` with a number -/
  | input (i : Nat)
  | iter (t : Tm)
  | next (t : Tm)
deriving DecidableEq

/-- An exception in an argument: `tuple(evaluate(arg) for arg in expr.args)` (`ops/semantics.py` 171) is a generator, in which Python
turns `StopIteration` into `RuntimeError` (PEP 479). -/
def argErr : Err → Err
  | .stop => .runtime
  | e => e

/-- `evaluate` (`ops/semantics.py` 169-173) of a term, with objects for the variables. -/
def eval (ρ : Nat → Obj V) : Tm → Heap V → Out V (Obj V)
  | .input i, h => (.ok (ρ i), h)
  | .iter t, h =>
    match eval ρ t h with
    | (.ok o, h') => iterObj o h'
    | (.error e, h') => (.error (argErr e), h')
  | .next t, h =>
    match eval ρ t h with
    | (.ok o, h') => nextObj o h'
    | (.error e, h') => (.error (argErr e), h')

/-- What a statement refers to: a given stream or the result of an earlier statement. -/
inductive Ref where
  | input (i : Nat)
  | var (k : Nat)

/-- `x = iter(r)` and `x = next(r)`. -/
inductive Stm where
  | iter (r : Ref)
  | next (r : Ref)

/-- The object of a reference. -/
def Ref.obj (ρ : Nat → Obj V) (env : List (Obj V)) : Ref → Option (Obj V)
  | .input i => some (ρ i)
  | .var k => env[k]?

/-- The term of a reference. -/
def Ref.tm (env : List Tm) : Ref → Option Tm
  | .input i => some (.input i)
  | .var k => env[k]?

/-- A run of Python on objects. -/
def run (ρ : Nat → Obj V) : List Stm → List (Obj V) → Heap V → Out V (List (Obj V))
  | [], env, h => (.ok env, h)
  | .iter r :: p, env, h =>
    match r.obj ρ env with
    | none => (.error .type, h)
    | some o =>
      match iterObj o h with
      | (.ok x, h') => run ρ p (env ++ [x]) h'
      | (.error e, h') => (.error e, h')
  | .next r :: p, env, h =>
    match r.obj ρ env with
    | none => (.error .type, h)
    | some o =>
      match nextObj o h with
      | (.ok x, h') => run ρ p (env ++ [x]) h'
      | (.error e, h') => (.error e, h')

/-- A run of Python on terms: each statement makes a term (`ops/syntax.py` 758-763, 768-773). -/
def trace : List Stm → List Tm → Option (List Tm)
  | [], env => some env
  | .iter r :: p, env =>
    match r.tm env with
    | none => none
    | some t => trace p (env ++ [.iter t])
  | .next r :: p, env =>
    match r.tm env with
    | none => none
    | some t => trace p (env ++ [.next t])

/-- Expressions over items, which are made after the statements. -/
inductive Tree (α : Type) where
  | leaf (x : α)
  | app (g : Nat) (a b : Tree α)

/-- The value of an expression of objects. -/
def direct (op : Nat → V → V → V) : Tree (Obj V) → Except Err V
  | .leaf (.val v) => .ok v
  | .leaf _ => .error .type
  | .app g a b =>
    match direct op a with
    | .error e => .error e
    | .ok x =>
      match direct op b with
      | .error e => .error e
      | .ok y => .ok (op g x y)

/-- `evaluate` of an expression of terms. -/
def evalTree (ρ : Nat → Obj V) (op : Nat → V → V → V) : Tree Tm → Heap V → Out V V
  | .leaf t, h =>
    match eval ρ t h with
    | (.ok (.val v), h') => (.ok v, h')
    | (.ok _, h') => (.error .type, h')
    | (.error e, h') => (.error e, h')
  | .app g a b, h =>
    match evalTree ρ op a h with
    | (.error e, h') => (.error (argErr e), h')
    | (.ok x, h') =>
      match evalTree ρ op b h' with
      | (.error e, h'') => (.error (argErr e), h'')
      | (.ok y, h'') => (.ok (op g x y), h'')

/-- `list(o)` with at most `n` steps. -/
def collect : Nat → Obj V → Heap V → List V → Option (Out V (List V))
  | 0, _, _, _ => none
  | n + 1, o, h, acc =>
    match nextObj o h with
    | (.ok (.val x), h') => collect n o h' (acc ++ [x])
    | (.error .stop, h') => some (.ok acc, h')
    | (_, h') => some (.error .type, h')

/-- `list(t)` for a term: the loop goes on until `next` raises. -/
def collectTm : Nat → Tm → List Tm → Option (List Tm)
  | 0, _, _ => none
  | n + 1, t, acc => collectTm n t (acc ++ [.next t])

/-! ## Specification -/

def Tree.leaves {α : Type} : Tree α → List α
  | .leaf x => [x]
  | .app _ a b => a.leaves ++ b.leaves

def Tree.map {α β : Type} (f : α → β) : Tree α → Tree β
  | .leaf x => .leaf (f x)
  | .app g a b => .app g (a.map f) (b.map f)

/-- The meaning of an expression over items. -/
def Tree.value (op : Nat → V → V → V) : Tree V → V
  | .leaf v => v
  | .app g a b => op g (a.value op) (b.value op)

/-- The items that are read if the iterators `as` are advanced one after the other: the `j`-th reading of an iterator gives its
item `j`. `prev` are the readings before. -/
def reads (h : Heap V) : List Nat → List Nat → Option (List V)
  | _, [] => some []
  | prev, a :: as =>
    match h[a]? with
    | none => none
    | some l =>
      match l[prev.count a]? with
      | none => none
      | some v => (reads h (prev ++ [a]) as).map (v :: ·)

/-- What is left after readings. -/
def left (h : Heap V) (prev : List Nat) : Heap V := h.mapIdx fun a l => l.drop (prev.count a)

/-- There are not enough items: there are for the first `k` readings, and not for the next one. -/
def Short (h : Heap V) (prev as : List Nat) (k : Nat) : Prop :=
  k < as.length ∧ (reads h prev (as.take k)).isSome ∧ reads h prev (as.take (k + 1)) = none

/-- The exception of `evaluate` if there are not enough items. -/
def Tree.stopErr {α : Type} : Tree α → Err
  | .leaf _ => .stop
  | .app _ _ _ => .runtime

/-- The stream that a term is an iterator of. -/
def Tm.stream : Tm → Option Nat
  | .input i => some i
  | .iter t => t.stream
  | .next _ => none

/-- The stream that is read first, if something is read. -/
def Tm.source : Tm → Option Nat
  | .input _ => none
  | .iter t => t.source
  | .next t => t.stream.or t.source

/-- The stream that a term is an item of. -/
def Tm.item : Tm → Option Nat
  | .next t => t.stream
  | _ => none

/-- Statements are about streams, and `next` about iterators; `env` are the terms of the statements before. -/
def Typed : List Stm → List Tm → Prop
  | [], _ => True
  | .iter r :: p, env => ∃ t i, r.tm env = some t ∧ t.stream = some i ∧ Typed p (env ++ [.iter t])
  | .next r :: p, env => ∃ t i, r.tm env = some t ∧ t.stream = some i ∧ Typed p (env ++ [.next t])

/-- The positions of `next` statements, and the streams they are about. -/
def nexts : List Stm → List Tm → List (Nat × Nat)
  | [], _ => []
  | .iter r :: p, env => nexts p (env ++ [.iter ((r.tm env).getD (.input 0))])
  | .next r :: p, env =>
    (env.length, (((r.tm env).bind Tm.stream)).getD 0) :: nexts p (env ++ [.next ((r.tm env).getD (.input 0))])

/-! ## Lemmas -/

theorem left_nil (h : Heap V) : left h [] = h := by
  apply List.ext_getElem?
  intro b
  cases e : h[b]? <;> simp [left, e]

theorem left_get (h : Heap V) (prev : List Nat) (a : Nat) : (left h prev)[a]? = (h[a]?).map fun l => l.drop (prev.count a) := by
  simp [left]

theorem left_set (h : Heap V) (prev : List Nat) (a : Nat) (l : List V) (ha : h[a]? = some l) :
    (left h prev).set a (l.drop (prev.count a + 1)) = left h (prev ++ [a]) := by
  apply List.ext_getElem?
  intro b
  rw [List.getElem?_set, left_get, left_get]
  by_cases e : a = b
  · subst e
    have hlt : a < h.length := (List.getElem?_eq_some_iff.1 ha).1
    rw [if_pos rfl, if_pos (by simpa [left] using hlt), ha]
    simp
  · rw [if_neg e]
    cases h[b]? with
    | none => rfl
    | some l' => simp [e]

theorem left_length (h : Heap V) (prev : List Nat) : (left h prev).length = h.length := by simp [left]

theorem nextObj_left (h : Heap V) (prev : List Nat) (a : Nat) (l : List V) (ha : h[a]? = some l) :
    nextObj (.it a) (left h prev) =
      match l[prev.count a]? with
      | some v => (.ok (.val v), left h (prev ++ [a]))
      | none => (.error .stop, left h prev) := by
  rw [nextObj, left_get, ha]
  simp only [Option.map_some]
  cases e : l.drop (prev.count a) with
  | nil =>
    rw [List.drop_eq_nil_iff] at e
    rw [List.getElem?_eq_none e]
  | cons x r =>
    have h0 : l[prev.count a]? = some x := by
      have := congrArg (fun z => z[0]?) e
      simpa [List.getElem?_drop] using this
    have h1 : r = l.drop (prev.count a + 1) := by
      have := congrArg List.tail e
      simpa [List.tail_drop] using this.symm
    rw [h0, h1]
    simp only
    rw [left_set h prev a l ha]

/-- Iterators are streams of themselves. -/
theorem eval_stream (ρ : Nat → Obj V) (α : Nat → Nat) (hρ : ∀ i, ρ i = .it (α i)) (h : Heap V) :
    ∀ (t : Tm) (i : Nat), t.stream = some i → eval ρ t h = (.ok (.it (α i)), h)
  | .input j, i, e => by
    cases e
    rw [eval, hρ]
  | .iter t, i, e => by
    rw [eval, eval_stream ρ α hρ h t i e]
    rfl
  | .next t, i, e => by cases e

theorem reads_append (h : Heap V) : ∀ (as prev bs : List Nat), reads h prev (as ++ bs) =
    match reads h prev as with
    | none => none
    | some vs => (reads h (prev ++ as) bs).map (vs ++ ·)
  | [], prev, bs => by simp [reads]
  | a :: as, prev, bs => by
    rw [List.cons_append, reads, reads]
    cases h[a]? with
    | none => rfl
    | some l =>
      simp only
      cases l[prev.count a]? with
      | none => rfl
      | some v =>
        simp only
        rw [reads_append h as]
        cases reads h (prev ++ [a]) as with
        | none => rfl
        | some vs => simp [Function.comp_def]

theorem reads_length (h : Heap V) : ∀ (as prev : List Nat) (vs : List V), reads h prev as = some vs → vs.length = as.length
  | [], _, vs, e => by cases e; rfl
  | a :: as, prev, vs, e => by
    rw [reads] at e
    cases ha : h[a]? with
    | none => rw [ha] at e; cases e
    | some l =>
      rw [ha] at e
      simp only at e
      cases hl : l[prev.count a]? with
      | none => rw [hl] at e; cases e
      | some v =>
        rw [hl] at e
        cases hr : reads h (prev ++ [a]) as with
        | none => simp only [hr] at e; cases e
        | some ws =>
          simp only [hr, Option.map_some, Option.some.injEq] at e
          subst e
          simp [reads_length h as _ ws hr]

theorem reads_cons (h : Heap V) (prev : List Nat) (a : Nat) (as : List Nat) (l : List V) (hl : h[a]? = some l) :
    reads h prev (a :: as) = (match l[prev.count a]? with
      | none => none
      | some v => (reads h (prev ++ [a]) as).map (v :: ·)) := by
  rw [reads, hl]

theorem short_left {h : Heap V} {prev as : List Nat} {k : Nat} (bs : List Nat) (hs : Short h prev as k) :
    Short h prev (as ++ bs) k ∧ (as ++ bs).take k = as.take k := by
  obtain ⟨h1, h2, h3⟩ := hs
  have e1 : (as ++ bs).take k = as.take k := List.take_append_of_le_length (by omega)
  have e2 : (as ++ bs).take (k + 1) = as.take (k + 1) := List.take_append_of_le_length (by omega)
  exact ⟨⟨by simp; omega, by rw [e1]; exact h2, by rw [e2]; exact h3⟩, e1⟩

theorem short_right {h : Heap V} {prev as bs : List Nat} {k : Nat} {vs : List V} (ha : reads h prev as = some vs)
    (hs : Short h (prev ++ as) bs k) :
    Short h prev (as ++ bs) (as.length + k) ∧ (as ++ bs).take (as.length + k) = as ++ bs.take k := by
  obtain ⟨h1, h2, h3⟩ := hs
  have e : ∀ n, (as ++ bs).take (as.length + n) = as ++ bs.take n := fun n => List.take_length_add_append n
  refine ⟨⟨by simp; omega, ?_, ?_⟩, e k⟩
  · rw [e, reads_append, ha]
    simpa using h2
  · rw [Nat.add_assoc, e, reads_append, ha]
    simpa using h3

theorem leaves_map {α β : Type} (f : α → β) : ∀ t : Tree α, (t.map f).leaves = t.leaves.map f
  | .leaf _ => rfl
  | .app _ a b => by simp [Tree.map, Tree.leaves, leaves_map f a, leaves_map f b]

theorem shape_length {α β : Type} : ∀ (t : Tree α) (u : Tree β), t.map (fun _ => ()) = u.map (fun _ => ()) →
    t.leaves.length = u.leaves.length := by
  intro t u h
  have := congrArg (fun z => z.leaves.length) h
  simpa [leaves_map] using this

theorem evalTree_spec (ρ : Nat → Obj V) (α : Nat → Nat) (hρ : ∀ i, ρ i = .it (α i)) (op : Nat → V → V → V) (h : Heap V)
    (hα : ∀ i, α i < h.length) : ∀ (t : Tree Tm) (prev : List Nat) (is : List Nat),
    t.leaves.map Tm.item = is.map some →
    (∀ vs, reads h prev (is.map α) = some vs → ∀ u : Tree V, u.map (fun _ => ()) = t.map (fun _ => ()) → u.leaves = vs →
      evalTree ρ op t (left h prev) = (.ok (u.value op), left h (prev ++ is.map α))) ∧
    (reads h prev (is.map α) = none → ∃ k, Short h prev (is.map α) k ∧
      evalTree ρ op t (left h prev) = (.error t.stopErr, left h (prev ++ (is.map α).take k)))
  | .leaf t, prev, is, hi => by
    match is, hi with
    | [], hi => simp [Tree.leaves] at hi
    | _ :: _ :: _, hi => simp [Tree.leaves] at hi
    | [i], hi =>
      have hi : t.item = some i := by simpa [Tree.leaves] using hi
      cases t with
      | input j => cases hi
      | iter t => cases hi
      | next t =>
        obtain ⟨l, hl⟩ : ∃ l, h[α i]? = some l := ⟨_, List.getElem?_eq_getElem (hα i)⟩
        have hn := nextObj_left h prev (α i) l hl
        have hnil : reads h prev [] = some [] := rfl
        rw [List.map_cons, List.map_nil]
        have hunf : reads h prev [α i] = (match l[prev.count (α i)]? with
            | none => none
            | some v => (reads h (prev ++ [α i]) []).map (v :: ·)) := by
          exact reads_cons h prev (α i) [] l hl
        constructor
        · intro vs e u hu hv
          cases u with
          | app g a b => cases hu
          | leaf v =>
            rw [hunf] at e
            cases hx : l[prev.count (α i)]? with
            | none => rw [hx] at e; cases e
            | some x =>
              rw [hx] at e hn
              have e : [x] = vs := by simpa [reads] using e
              rw [← e] at hv
              have hv : v = x := by simpa [Tree.leaves] using hv
              subst hv
              rw [evalTree, eval, eval_stream ρ α hρ _ t i hi]
              simp only [hn, Tree.value]
        · intro e
          have e' := e
          rw [hunf] at e
          cases hx : l[prev.count (α i)]? with
          | some x => rw [hx] at e; simp [reads] at e
          | none =>
            rw [hx] at hn
            refine ⟨0, ⟨by simp, by simp [hnil], e'⟩, ?_⟩
            rw [evalTree, eval, eval_stream ρ α hρ _ t i hi]
            simp [hn, Tree.stopErr]
  | .app g a b, prev, is, hi => by
    have hsplit : ∃ is₁ is₂, is = is₁ ++ is₂ ∧ a.leaves.map Tm.item = is₁.map some ∧ b.leaves.map Tm.item = is₂.map some := by
      rw [Tree.leaves, List.map_append] at hi
      obtain ⟨x, y, h1, h2, h3⟩ := List.map_eq_append_iff.1 hi.symm
      exact ⟨x, y, h1, h2.symm, h3.symm⟩
    obtain ⟨is₁, is₂, rfl, h1, h2⟩ := hsplit
    obtain ⟨a1, a2⟩ := evalTree_spec ρ α hρ op h hα a prev is₁ h1
    obtain ⟨b1, b2⟩ := evalTree_spec ρ α hρ op h hα b (prev ++ is₁.map α) is₂ h2
    rw [List.map_append, reads_append]
    constructor
    · intro vs e u hu hv
      cases u with
      | leaf v => cases hu
      | app g' u₁ u₂ =>
        rw [Tree.map, Tree.map] at hu
        injection hu with hg hu1 hu2
        subst hg
        cases hr : reads h prev (is₁.map α) with
        | none => rw [hr] at e; cases e
        | some vs₁ =>
          rw [hr] at e
          cases hr2 : reads h (prev ++ is₁.map α) (is₂.map α) with
          | none => simp only [hr2] at e; cases e
          | some vs₂ =>
            simp only [hr2, Option.map_some, Option.some.injEq] at e
            have hl : u₁.leaves.length = vs₁.length := by
              rw [reads_length h _ _ _ hr, shape_length u₁ a hu1]
              have := congrArg List.length h1
              simpa using this
            rw [Tree.leaves, ← e] at hv
            obtain ⟨hv1, hv2⟩ := List.append_inj hv hl
            rw [evalTree, a1 vs₁ hr u₁ hu1 hv1]
            simp only
            rw [b1 vs₂ hr2 u₂ hu2 hv2]
            simp [Tree.value]
    · intro e
      cases hr : reads h prev (is₁.map α) with
      | none =>
        obtain ⟨k, hs, e'⟩ := a2 hr
        obtain ⟨s1, s2⟩ := short_left (is₂.map α) hs
        refine ⟨k, s1, ?_⟩
        rw [evalTree, e', s2]
        cases a <;> rfl
      | some vs₁ =>
        rw [hr] at e
        cases hr2 : reads h (prev ++ is₁.map α) (is₂.map α) with
        | some vs₂ => simp only [hr2] at e; cases e
        | none =>
          obtain ⟨k, hs, e'⟩ := b2 hr2
          obtain ⟨s1, s2⟩ := short_right hr hs
          have hl : vs₁.length = a.leaves.length := by
            rw [reads_length h _ _ _ hr]
            have := congrArg List.length h1
            simpa using this.symm
          obtain ⟨u₁, hu1, hv1⟩ : ∃ u : Tree V, u.map (fun _ => ()) = a.map (fun _ => ()) ∧ u.leaves = vs₁ := by
            clear a1 a2 hr e h1 hi
            induction a generalizing vs₁ with
            | leaf x =>
              match vs₁, hl with
              | [v], _ => exact ⟨.leaf v, rfl, rfl⟩
            | app g a b iha ihb =>
              rw [Tree.leaves, List.length_append] at hl
              obtain ⟨u, h1, h2⟩ := iha (vs₁.take a.leaves.length) (by simp; omega)
              obtain ⟨w, h3, h4⟩ := ihb (vs₁.drop a.leaves.length) (by simp; omega)
              exact ⟨.app g u w, by simp [Tree.map, h1, h3], by simp [Tree.leaves, h2, h4]⟩
          refine ⟨_, s1, ?_⟩
          rw [evalTree, a1 vs₁ hr u₁ hu1 hv1, s2]
          simp only
          rw [e', List.append_assoc]
          cases b <;> rfl

/-- Objects and terms of the statements before: terms that are iterators of a stream belong to the iterator. -/
def Match (α : Nat → Nat) (envO : List (Obj V)) (envT : List Tm) : Prop :=
  envO.length = envT.length ∧ ∀ (k : Nat) (t : Tm) (i : Nat), envT[k]? = some t → t.stream = some i → envO[k]? = some (.it (α i))

theorem Match.snoc {α : Nat → Nat} {envO : List (Obj V)} {envT : List Tm} (hm : Match α envO envT) (o : Obj V) (t : Tm)
    (h : ∀ i, t.stream = some i → o = .it (α i)) : Match α (envO ++ [o]) (envT ++ [t]) := by
  obtain ⟨h1, h2⟩ := hm
  refine ⟨by simp [h1], ?_⟩
  intro k t' i hk hs
  rw [List.getElem?_append] at hk ⊢
  by_cases hl : k < envT.length
  · rw [if_pos hl] at hk
    rw [if_pos (h1 ▸ hl)]
    exact h2 k t' i hk hs
  · rw [if_neg hl] at hk
    rw [if_neg (h1 ▸ hl), h1]
    cases hz : k - envT.length with
    | zero =>
      rw [hz] at hk
      have hk : t = t' := by simpa using hk
      subst hk
      rw [h i hs]
      rfl
    | succ m => rw [hz] at hk; simp at hk

theorem Match.ref {ρ : Nat → Obj V} {α : Nat → Nat} (hρ : ∀ i, ρ i = .it (α i)) {envO : List (Obj V)} {envT : List Tm}
    (hm : Match α envO envT) (r : Ref) (t : Tm) (i : Nat) (ht : r.tm envT = some t) (hs : t.stream = some i) :
    r.obj ρ envO = some (.it (α i)) := by
  cases r with
  | input j =>
    rw [Ref.tm] at ht
    cases ht
    cases hs
    rw [Ref.obj, hρ]
  | var k => exact hm.2 k t i ht hs

theorem get_prefix {β : Type} {a b : List β} (h : a <+: b) {k : Nat} {x : β} (hk : a[k]? = some x) : b[k]? = some x := by
  obtain ⟨c, rfl⟩ := h
  rw [List.getElem?_append_left (List.getElem?_eq_some_iff.1 hk).1, hk]

theorem run_spec (ρ : Nat → Obj V) (α : Nat → Nat) (hρ : ∀ i, ρ i = .it (α i)) (h : Heap V) (hα : ∀ i, α i < h.length) :
    ∀ (p : List Stm) (envO : List (Obj V)) (envT : List Tm) (prev : List Nat), Typed p envT → Match α envO envT →
    (∀ vs, reads h prev ((nexts p envT).map fun n => α n.2) = some vs →
      ∃ env, run ρ p envO (left h prev) = (.ok env, left h (prev ++ (nexts p envT).map fun n => α n.2)) ∧ envO <+: env ∧
        (nexts p envT).map (fun n => env[n.1]?) = vs.map fun v => some (.val v)) ∧
    (reads h prev ((nexts p envT).map fun n => α n.2) = none → ∃ k, Short h prev ((nexts p envT).map fun n => α n.2) k ∧
      run ρ p envO (left h prev) = (.error .stop, left h (prev ++ ((nexts p envT).map fun n => α n.2).take k)))
  | [], envO, envT, prev, _, _ => by
    refine ⟨fun vs e => ⟨envO, by simp [run, nexts], List.prefix_refl _, ?_⟩, fun e => by cases e⟩
    cases e
    rfl
  | .iter r :: p, envO, envT, prev, ht, hm => by
    obtain ⟨t, i, h1, h2, h3⟩ := ht
    have hr := hm.ref hρ r t i h1 h2
    have hm' : Match α (envO ++ [.it (α i)]) (envT ++ [.iter t]) := hm.snoc _ _ (by
      intro j hj
      rw [Tm.stream, h2] at hj
      cases hj
      rfl)
    have ih := run_spec ρ α hρ h hα p _ _ prev h3 hm'
    rw [nexts, h1, Option.getD_some, run, hr]
    refine ⟨fun vs e => ?_, fun e => ih.2 e⟩
    obtain ⟨env, e1, e2, e3⟩ := ih.1 vs e
    exact ⟨env, e1, (List.prefix_append _ _).trans e2, e3⟩
  | .next r :: p, envO, envT, prev, ht, hm => by
    obtain ⟨t, i, h1, h2, h3⟩ := ht
    have hr := hm.ref hρ r t i h1 h2
    obtain ⟨l, hl⟩ : ∃ l, h[α i]? = some l := ⟨_, List.getElem?_eq_getElem (hα i)⟩
    have hn := nextObj_left h prev (α i) l hl
    rw [nexts, h1, Option.getD_some, run, hr]
    simp only [Option.bind_some, h2, Option.getD_some, List.map_cons]
    have hone : reads h prev [α i] = (l[prev.count (α i)]?).map fun v => [v] := by
      rw [reads_cons h prev (α i) [] l hl]
      cases l[prev.count (α i)]? <;> rfl
    cases hx : l[prev.count (α i)]? with
    | none =>
      rw [hx] at hn hone
      have hnone : reads h prev (α i :: (nexts p (envT ++ [.next t])).map fun n => α n.2) = none := by
        rw [reads, hl]
        simp only [hx]
      refine ⟨fun vs e => (by rw [hnone] at e; cases e), fun _ => ⟨0, ⟨by simp, by simp [reads], hone⟩, ?_⟩⟩
      rw [hn]
      simp
    | some v =>
      rw [hx] at hn hone
      have hcons : ∀ as, reads h prev (α i :: as) = (reads h (prev ++ [α i]) as).map (v :: ·) := fun as => by
        rw [reads, hl]
        simp only [hx]
      rw [hcons]
      have hm' : Match α (envO ++ [.val v]) (envT ++ [.next t]) := hm.snoc _ _ (fun j hj => by cases hj)
      have ih := run_spec ρ α hρ h hα p _ _ (prev ++ [α i]) h3 hm'
      simp only [hn]
      cases hr' : reads h (prev ++ [α i]) ((nexts p (envT ++ [.next t])).map fun n => α n.2) with
      | none =>
        refine ⟨fun vs e => (by cases e), fun _ => ?_⟩
        obtain ⟨k, hs, e⟩ := ih.2 hr'
        obtain ⟨s1, s2⟩ := short_right (as := [α i]) hone hs
        refine ⟨_, s1, ?_⟩
        rw [e]
        simp only [List.singleton_append] at s2
        rw [s2]
        simp
      | some ws =>
        refine ⟨fun vs e => ?_, fun e => (by cases e)⟩
        have e : v :: ws = vs := by simpa using e
        obtain ⟨env, e1, e2, e3⟩ := ih.1 ws hr'
        refine ⟨env, ?_, (List.prefix_append _ _).trans e2, ?_⟩
        · rw [e1]
          simp
        · rw [← e, List.map_cons, e3]
          congr 1
          apply get_prefix e2
          rw [← hm.1]
          simp

theorem trace_spec : ∀ (p : List Stm) (env : List Tm), Typed p env →
    ∃ tms, trace p env = some tms ∧ env <+: tms ∧
      (nexts p env).map (fun n => (tms[n.1]?).bind Tm.item) = (nexts p env).map fun n => some n.2
  | [], env, _ => ⟨env, rfl, List.prefix_refl _, rfl⟩
  | .iter r :: p, env, ht => by
    obtain ⟨t, i, h1, h2, h3⟩ := ht
    obtain ⟨tms, e1, e2, e3⟩ := trace_spec p _ h3
    refine ⟨tms, by rw [trace, h1]; exact e1, (List.prefix_append _ _).trans e2, ?_⟩
    rw [nexts, h1]
    exact e3
  | .next r :: p, env, ht => by
    obtain ⟨t, i, h1, h2, h3⟩ := ht
    obtain ⟨tms, e1, e2, e3⟩ := trace_spec p _ h3
    refine ⟨tms, by rw [trace, h1]; exact e1, (List.prefix_append _ _).trans e2, ?_⟩
    have hg : tms[env.length]? = some (.next t) := get_prefix e2 (by simp)
    rw [nexts, h1]
    simp only [Option.bind_some, Option.getD_some, List.map_cons]
    rw [e3, hg]
    simp [Tm.item, h2]

theorem direct_val (op : Nat → V → V → V) : ∀ u : Tree V, direct op (u.map .val) = .ok (u.value op)
  | .leaf _ => rfl
  | .app g a b => by rw [Tree.map, direct, direct_val op a, direct_val op b]; rfl

theorem map_map {α β γ : Type} (f : α → β) (g : β → γ) : ∀ t : Tree α, (t.map f).map g = t.map (fun x => g (f x))
  | .leaf _ => rfl
  | .app _ a b => by simp [Tree.map, map_map f g a, map_map f g b]

theorem tree_vals : ∀ (O : Tree (Obj V)) (vs : List V), O.leaves = vs.map .val → ∃ u : Tree V, O = u.map .val ∧ u.leaves = vs
  | .leaf o, vs, h => by
    match vs, h with
    | [], h => simp [Tree.leaves] at h
    | _ :: _ :: _, h => simp [Tree.leaves] at h
    | [v], h =>
      have h : o = .val v := by simpa [Tree.leaves] using h
      exact ⟨.leaf v, by rw [h]; rfl, rfl⟩
  | .app g a b, vs, h => by
    rw [Tree.leaves] at h
    obtain ⟨x, y, h1, h2, h3⟩ := List.map_eq_append_iff.1 h.symm
    obtain ⟨u, u1, u2⟩ := tree_vals a x h2.symm
    obtain ⟨w, w1, w2⟩ := tree_vals b y h3.symm
    exact ⟨.app g u w, by rw [u1, w1]; rfl, by rw [Tree.leaves, u2, w2, h1]⟩

/-! ## Theorems -/

/-- With iterators for the variables, `evaluate` of an expression advances the iterators at the occurrences of `next` in the
expression, from left to right, whatever program made it: an occurrence gets the item whose number is the number of occurrences
before it on the same iterator. If there are not enough items, it raises `StopIteration` if
the expression is just `next`, and `RuntimeError` otherwise, after the readings for which there were items. -/
theorem C97_evaluate (α : Nat → Nat) (op : Nat → V → V → V) (h : Heap V) (hα : ∀ i, α i < h.length) (t : Tree Tm) (is : List Nat)
    (hi : t.leaves.map Tm.item = is.map some) :
    (∀ vs, reads h [] (is.map α) = some vs → ∀ u : Tree V, u.map (fun _ => ()) = t.map (fun _ => ()) → u.leaves = vs →
      evalTree (fun i => .it (α i)) op t h = (.ok (u.value op), left h (is.map α))) ∧
    (reads h [] (is.map α) = none → ∃ k, Short h [] (is.map α) k ∧
      evalTree (fun i => .it (α i)) op t h = (.error t.stopErr, left h ((is.map α).take k))) := by
  have := evalTree_spec (fun i => .it (α i)) α (fun _ => rfl) op h hα t [] is hi
  rw [left_nil] at this
  simpa using this

/-- A run of Python on iterators advances them at the `next` statements, in the order of the program. -/
theorem C97_run (α : Nat → Nat) (h : Heap V) (hα : ∀ i, α i < h.length) (p : List Stm) (hp : Typed p []) :
    (∀ vs, reads h [] ((nexts p []).map fun n => α n.2) = some vs →
      ∃ env, run (fun i => .it (α i)) p [] h = (.ok env, left h ((nexts p []).map fun n => α n.2)) ∧
        (nexts p []).map (fun n => env[n.1]?) = vs.map fun v => some (.val v)) ∧
    (reads h [] ((nexts p []).map fun n => α n.2) = none → ∃ k, Short h [] ((nexts p []).map fun n => α n.2) k ∧
      run (fun i => .it (α i)) p [] h = (.error .stop, left h (((nexts p []).map fun n => α n.2).take k))) := by
  have := run_spec (fun i => .it (α i)) α (fun _ => rfl) h hα p [] [] [] hp ⟨rfl, by simp⟩
  rw [left_nil] at this
  refine ⟨fun vs e => ?_, fun e => by simpa using this.2 e⟩
  obtain ⟨env, e1, _, e3⟩ := this.1 vs e
  exact ⟨env, by simpa using e1, e3⟩

theorem short_unique {h : Heap V} {as : List Nat} {k k' : Nat} (a : Short h [] as k) (b : Short h [] as k') : k = k' := by
  have mono : ∀ m n : Nat, m ≤ n → (reads h [] (as.take n)).isSome → (reads h [] (as.take m)).isSome := by
    intro m n hmn hn
    have e : as.take n = as.take m ++ (as.take n).drop m := by
      conv => lhs; rw [← List.take_append_drop m (as.take n)]
      rw [List.take_take, Nat.min_eq_left hmn]
    rw [e, reads_append] at hn
    cases hr : reads h [] (as.take m) with
    | none => rw [hr] at hn; cases hn
    | some _ => rfl
  rcases Nat.lt_trichotomy k k' with hl | hl | hl
  · have := mono (k + 1) k' hl b.2.1
    rw [a.2.2] at this
    cases this
  · exact hl
  · have := mono (k' + 1) k hl a.2.1
    rw [b.2.2] at this
    cases this

/-- If the result of a program has each item that was taken once, in the order in which the items were taken, then `evaluate` of
the result on terms gives what the program gives on iterators, and leaves the iterators as the program does. If there are not
enough items, both raise, and leave the iterators alike. -/
theorem C97_agrees (α : Nat → Nat) (op : Nat → V → V → V) (h : Heap V) (hα : ∀ i, α i < h.length) (p : List Stm) (hp : Typed p [])
    (R : Tree Nat) (hR : R.leaves = (nexts p []).map (·.1)) :
    ∃ tms, trace p [] = some tms ∧ ∀ T : Tree Tm, T.map some = R.map (fun k => tms[k]?) →
      (∀ env h', run (fun i => .it (α i)) p [] h = (.ok env, h') → ∀ O : Tree (Obj V), O.map some = R.map (fun k => env[k]?) →
        evalTree (fun i => .it (α i)) op T h = (direct op O, h')) ∧
      (∀ e h', run (fun i => .it (α i)) p [] h = (.error e, h') →
        e = .stop ∧ evalTree (fun i => .it (α i)) op T h = (.error T.stopErr, h')) := by
  obtain ⟨tms, t1, _, t3⟩ := trace_spec p [] hp
  refine ⟨tms, t1, fun T hT => ?_⟩
  have hL : T.leaves.map some = (nexts p []).map fun n => tms[n.1]? := by
    rw [← leaves_map, hT, leaves_map, hR, List.map_map]
    rfl
  have hi : T.leaves.map Tm.item = ((nexts p []).map (·.2)).map some := by
    have := congrArg (List.map fun x => x.bind Tm.item) hL
    rw [List.map_map, List.map_map] at this
    rw [List.map_map]
    exact this.trans t3
  obtain ⟨E1, E2⟩ := C97_evaluate α op h hα T _ hi
  obtain ⟨R1, R2⟩ := C97_run α h hα p hp
  rw [List.map_map] at E1 E2
  change ∀ vs, reads h [] ((nexts p []).map fun n => α n.2) = some vs → _ at E1
  change reads h [] ((nexts p []).map fun n => α n.2) = none → _ at E2
  cases hr : reads h [] ((nexts p []).map fun n => α n.2) with
  | none =>
    obtain ⟨k, hk, hg⟩ := R2 hr
    obtain ⟨k', hk', hg'⟩ := E2 hr
    change Short h [] ((nexts p []).map fun n => α n.2) k' at hk'
    change _ = (_, left h (((nexts p []).map fun n => α n.2).take k')) at hg'
    have hkk := short_unique hk hk'
    refine ⟨fun env h' e => ?_, fun e h' he => ?_⟩
    · rw [hg] at e
      cases e
    · rw [hg] at he
      cases he
      rw [hkk]
      exact ⟨rfl, hg'⟩
  | some vs =>
    obtain ⟨env, e1, e3⟩ := R1 vs hr
    refine ⟨fun env' h' e O hO => ?_, fun e h' he => ?_⟩
    · rw [e1] at e
      cases e
      have hOl : O.leaves = vs.map .val := by
        have : O.leaves.map some = (vs.map .val).map some := by
          rw [← leaves_map, hO, leaves_map, hR, List.map_map, List.map_map]
          exact e3
        have h2 := congrArg (List.filterMap id) this
        simpa [List.filterMap_map] using h2
      obtain ⟨u, rfl, hu⟩ := tree_vals O vs hOl
      have hs : u.map (fun _ => ()) = T.map (fun _ => ()) := by
        have a := congrArg (Tree.map fun _ => ()) hO
        have b := congrArg (Tree.map fun _ => ()) hT
        rw [map_map, map_map, map_map] at a
        rw [map_map, map_map] at b
        exact a.trans b.symm
      rw [direct_val]
      exact E1 vs hr u hs hu
    · rw [e1] at he
      cases he

/-- `a = next(x); y = iter(x); b = next(y)` and the result `g(a, b)`. -/
example : Typed [.next (.input 0), .iter (.input 0), .next (.var 1)] [] ∧
    nexts [.next (.input 0), .iter (.input 0), .next (.var 1)] [] = [(0, 0), (2, 0)] ∧
    (Tree.app 0 (.leaf 0) (.leaf 2)).leaves = (nexts [.next (.input 0), .iter (.input 0), .next (.var 1)] []).map (·.1) ∧
    evalTree (fun _ => .it 0) (fun _ x y => 10 * x + y) (.app 0 (.leaf (.next (.input 0))) (.leaf (.next (.iter (.input 0)))))
      [[3, 4, 5]] = (.ok 34, [[5]]) :=
  ⟨⟨_, 0, rfl, rfl, _, 0, rfl, rfl, _, 0, rfl, rfl, trivial⟩, rfl, rfl, rfl⟩

/-- not enough items -/
example : reads [[3]] [] [0, 0] = none ∧
    evalTree (fun _ => .it 0) (fun _ x y => 10 * x + y) (.app 0 (.leaf (.next (.input 0))) (.leaf (.next (.input 0)))) [[3]] =
      (.error .runtime, [[]]) := ⟨rfl, rfl⟩

theorem eval_ill (ρ : Nat → Obj V) (α : Nat → Nat) (hρ : ∀ i, ρ i = .it (α i)) (h : Heap V) :
    ∀ (t : Tm) (i : Nat) (l : List V), t.source = some i → t.item = none → h[α i]? = some l →
    eval ρ t h = match l with
      | [] => (.error .runtime, h)
      | _ :: r => (.error .type, h.set (α i) r)
  | .input j, i, l, hs, _, _ => by cases hs
  | .iter t, i, l, hs, _, hl => by
    rw [Tm.source] at hs
    cases ht : t.item with
    | none =>
      rw [eval, eval_ill ρ α hρ h t i l hs ht hl]
      cases l <;> rfl
    | some j =>
      cases t with
      | input _ => cases ht
      | iter _ => cases ht
      | next u =>
        rw [Tm.item] at ht
        rw [Tm.source, ht] at hs
        cases hs
        rw [eval, eval, eval_stream ρ α hρ h u i ht]
        cases l <;> simp [nextObj, iterObj, hl, argErr]
  | .next t, i, l, hs, hi, hl => by
    rw [Tm.item] at hi
    rw [Tm.source, hi, Option.none_or] at hs
    cases ht : t.item with
    | none =>
      rw [eval, eval_ill ρ α hρ h t i l hs ht hl]
      cases l <;> rfl
    | some j =>
      cases t with
      | input _ => cases ht
      | iter _ => cases ht
      | next u =>
        rw [Tm.item] at ht
        rw [Tm.source, ht] at hs
        cases hs
        rw [eval, eval, eval_stream ρ α hρ h u i ht]
        cases l <;> simp [nextObj, hl, argErr]

/-- Items that are no streams have no items: `evaluate` of `iter` or `next` of an item, and of terms that contain it, takes the
item and raises `TypeError`, or `RuntimeError` if there is no item. -/
theorem C97_nested (α : Nat → Nat) (h : Heap V) (t : Tm) (i : Nat) (l : List V) (hs : t.source = some i) (hi : t.item = none)
    (hl : h[α i]? = some l) :
    (l = [] → eval (fun i => .it (α i)) t h = (.error .runtime, h)) ∧
    (∀ x r, l = x :: r → eval (fun i => .it (α i)) t h = (.error .type, h.set (α i) r)) := by
  refine ⟨fun e => ?_, fun x r e => ?_⟩ <;> subst e
  · exact eval_ill _ α (fun _ => rfl) h t i [] hs hi hl
  · exact eval_ill _ α (fun _ => rfl) h t i (x :: r) hs hi hl

example : (Tm.next (.iter (.next (.input 2)))).source = some 2 ∧ (Tm.next (.iter (.next (.input 2)))).item = none := ⟨rfl, rfl⟩

/-- The exception is not kept: on an iterator without items, `g(next(x), next(x))` raises `StopIteration`, and `evaluate` of the
term `RuntimeError`. -/
theorem C97_stop_fails (op : Nat → V → V → V) :
    ∃ (p : List Stm) (R : Tree Nat), Typed p [] ∧ R.leaves = (nexts p []).map (·.1) ∧ ∃ tms, trace p [] = some tms ∧
      ∃ T : Tree Tm, T.map some = R.map (fun k => tms[k]?) ∧ evalTree (fun _ => .it 0) op T [[]] = (.error .runtime, [[]]) ∧
      run (fun _ => (.it 0 : Obj V)) p [] [[]] = (.error .stop, [[]]) :=
  ⟨[.next (.input 0), .next (.input 0)], .app 0 (.leaf 0) (.leaf 1), ⟨_, 0, rfl, rfl, _, 0, rfl, rfl, trivial⟩, rfl, _, rfl,
    .app 0 (.leaf (.next (.input 0))) (.leaf (.next (.input 0))), rfl, rfl, rfl⟩

/-- The order of the program is not kept: with `a = next(x); b = next(x)`, the result `g(b, a)` has the items the other way round
(`evaluate`, `ops/semantics.py` 171, goes through the arguments of the result). -/
theorem C97_order_fails (op : Nat → V → V → V) (x y : V) (l : List V) :
    ∃ (p : List Stm) (R : Tree Nat), Typed p [] ∧ ∃ tms, trace p [] = some tms ∧
      ∃ T : Tree Tm, T.map some = R.map (fun k => tms[k]?) ∧ evalTree (fun _ => .it 0) op T [x :: y :: l] = (.ok (op 0 x y), [l]) ∧
      ∃ env, run (fun _ => .it 0) p [] [x :: y :: l] = (.ok env, [l]) ∧
      ∃ O : Tree (Obj V), O.map some = R.map (fun k => env[k]?) ∧ direct op O = .ok (op 0 y x) :=
  ⟨[.next (.input 0), .next (.input 0)], .app 0 (.leaf 1) (.leaf 0), ⟨_, 0, rfl, rfl, _, 0, rfl, rfl, trivial⟩, _, rfl,
    .app 0 (.leaf (.next (.input 0))) (.leaf (.next (.input 0))), rfl, rfl, _, rfl, .app 0 (.leaf (.val y)) (.leaf (.val x)), rfl, rfl⟩

/-- An item is taken anew at each use: with `a = next(x)`, the result `g(a, a)` has two items. -/
theorem C97_shared_fails (op : Nat → V → V → V) (x y : V) (l : List V) :
    ∃ (p : List Stm) (R : Tree Nat), Typed p [] ∧ ∃ tms, trace p [] = some tms ∧
      ∃ T : Tree Tm, T.map some = R.map (fun k => tms[k]?) ∧ evalTree (fun _ => .it 0) op T [x :: y :: l] = (.ok (op 0 x y), [l]) ∧
      ∃ env, run (fun _ => .it 0) p [] [x :: y :: l] = (.ok env, [y :: l]) ∧
      ∃ O : Tree (Obj V), O.map some = R.map (fun k => env[k]?) ∧ direct op O = .ok (op 0 x x) :=
  ⟨[.next (.input 0)], .app 0 (.leaf 0) (.leaf 0), ⟨_, 0, rfl, rfl, trivial⟩, _, rfl,
    .app 0 (.leaf (.next (.input 0))) (.leaf (.next (.input 0))), rfl, rfl, _, rfl, .app 0 (.leaf (.val x)) (.leaf (.val x)), rfl, rfl⟩

/-- An item that is not used is not taken: with `next(x); b = next(x)`, the result `b` is the first item. -/
theorem C97_unused_fails (op : Nat → V → V → V) (x y : V) (l : List V) :
    ∃ (p : List Stm) (R : Tree Nat), Typed p [] ∧ ∃ tms, trace p [] = some tms ∧
      ∃ T : Tree Tm, T.map some = R.map (fun k => tms[k]?) ∧ evalTree (fun _ => .it 0) op T [x :: y :: l] = (.ok x, [y :: l]) ∧
      ∃ env, run (fun _ => .it 0) p [] [x :: y :: l] = (.ok env, [l]) ∧
      ∃ O : Tree (Obj V), O.map some = R.map (fun k => env[k]?) ∧ direct op O = .ok y :=
  ⟨[.next (.input 0), .next (.input 0)], .leaf 1, ⟨_, 0, rfl, rfl, _, 0, rfl, rfl, trivial⟩, _, rfl,
    .leaf (.next (.input 0)), rfl, rfl, _, rfl, .leaf (.val y), rfl, rfl⟩

/-! ### Containers -/

theorem eval_container (ρ : Nat → Obj V) (c : Nat → List V) (hρ : ∀ i, ρ i = .items (c i)) (h : Heap V) :
    ∀ (t : Tm) (i : Nat), t.stream = some i → eval ρ (.iter t) h = (.ok (.it h.length), h ++ [c i])
  | .input j, i, e => by
    cases e
    rw [eval, eval, hρ]
    rfl
  | .iter t, i, e => by
    rw [eval, eval_container ρ c hρ h t i e]
    rfl
  | .next t, i, e => by cases e

/-- With containers for the variables, an item is the first one of its container, wherever it occurs and whatever was evaluated
before: `iter` is evaluated again, to a new iterator, at each use. An empty container gives `StopIteration`. -/
theorem C97_items (c : Nat → List V) (h : Heap V) (t : Tm) (i : Nat) (ht : t.stream = some i) :
    (∀ x l, c i = x :: l → eval (fun i => .items (c i)) (.next (.iter t)) h = (.ok (.val x), h ++ [l])) ∧
    (c i = [] → eval (fun i => .items (c i)) (.next (.iter t)) h = (.error .stop, h ++ [[]])) := by
  have he := eval_container (fun i => .items (c i)) c (fun _ => rfl) h t i ht
  constructor
  · intro x l hc
    rw [eval, he, hc]
    simp [nextObj]
  · intro hc
    rw [eval, he, hc]
    simp [nextObj]

/-- So `it = iter(x); a = next(it); b = next(it)` gives the first item twice. -/
theorem C97_advance_fails (op : Nat → V → V → V) (x y : V) (l : List V) :
    ∃ (p : List Stm) (R : Tree Nat), Typed p [] ∧ R.leaves = (nexts p []).map (·.1) ∧ ∃ tms, trace p [] = some tms ∧
      ∃ T : Tree Tm, T.map some = R.map (fun k => tms[k]?) ∧
      (evalTree (fun _ => .items (x :: y :: l)) op T []).1 = .ok (op 0 x x) ∧
      ∃ env, run (fun _ => .items (x :: y :: l)) p [] [] = (.ok env, [l]) ∧
      ∃ O : Tree (Obj V), O.map some = R.map (fun k => env[k]?) ∧ direct op O = .ok (op 0 x y) :=
  ⟨[.iter (.input 0), .next (.var 0), .next (.var 0)], .app 0 (.leaf 1) (.leaf 2),
    ⟨_, 0, rfl, rfl, _, 0, rfl, rfl, _, 0, rfl, rfl, trivial⟩, rfl, _, rfl,
    .app 0 (.leaf (.next (.iter (.input 0)))) (.leaf (.next (.iter (.input 0)))), rfl, rfl, _, rfl,
    .app 0 (.leaf (.val x)) (.leaf (.val y)), rfl, rfl⟩

/-- `next(iter(x))` for each of some variables; `n` statements come before. -/
def firsts : Nat → List Nat → List Stm
  | _, [] => []
  | n, i :: is => .iter (.input i) :: .next (.var n) :: firsts (n + 2) is

/-- A position is that of the `next` of a variable. -/
def At (n : Nat) (is : List Nat) (k i : Nat) : Prop := ∃ j, k = n + 2 * j + 1 ∧ is[j]? = some i

theorem At.cases {n : Nat} {i : Nat} {is : List Nat} {k m : Nat} (h : At n (i :: is) k m) :
    (k = n + 1 ∧ m = i) ∨ At (n + 2) is k m := by
  obtain ⟨j, rfl, hj⟩ := h
  cases j with
  | zero => left; exact ⟨rfl, by simpa using hj.symm⟩
  | succ j => right; exact ⟨j, by omega, by simpa using hj⟩

theorem firsts_trace : ∀ (is : List Nat) (env : List Tm), ∃ tms, trace (firsts env.length is) env = some tms ∧ env <+: tms ∧
    ∀ k i, At env.length is k i → tms[k]? = some (.next (.iter (.input i)))
  | [], env => ⟨env, rfl, List.prefix_refl _, fun k i h => by obtain ⟨j, _, hj⟩ := h; simp at hj⟩
  | i :: is, env => by
    obtain ⟨tms, e1, e2, e3⟩ := firsts_trace is (env ++ [.iter (.input i)] ++ [.next (.iter (.input i))])
    have hl : (env ++ [Tm.iter (.input i)] ++ [Tm.next (.iter (.input i))]).length = env.length + 2 := by simp
    rw [hl] at e1 e3
    refine ⟨tms, ?_, ?_, ?_⟩
    · rw [firsts, trace, Ref.tm]
      simp only
      rw [trace, Ref.tm]
      simpa using e1
    · exact (by simp : env <+: env ++ [Tm.iter (.input i)] ++ [Tm.next (.iter (.input i))]).trans e2
    · intro k m hk
      rcases hk.cases with ⟨rfl, rfl⟩ | hk
      · exact get_prefix e2 (by simp)
      · exact e3 k m hk

theorem firsts_run (c : Nat → List V) (f : Nat → V) : ∀ (is : List Nat) (env : List (Obj V)) (h : Heap V),
    (∀ i ∈ is, (c i).head? = some (f i)) →
    ∃ env' h', run (fun i => .items (c i)) (firsts env.length is) env h = (.ok env', h') ∧ env <+: env' ∧
      ∀ k i, At env.length is k i → env'[k]? = some (.val (f i))
  | [], env, h, _ => ⟨env, h, rfl, List.prefix_refl _, fun k i h => by obtain ⟨j, _, hj⟩ := h; simp at hj⟩
  | i :: is, env, h, hc => by
    obtain ⟨l, hl⟩ : ∃ l, c i = f i :: l := by
      have := hc i (by simp)
      cases e : c i with
      | nil => rw [e] at this; cases this
      | cons x l => rw [e] at this; cases this; exact ⟨l, rfl⟩
    obtain ⟨env', h', e1, e2, e3⟩ := firsts_run c f is (env ++ [.it h.length] ++ [.val (f i)]) (h ++ [l])
      (fun j hj => hc j (by simp [hj]))
    have hn : (env ++ [Obj.it h.length] ++ [Obj.val (f i)]).length = env.length + 2 := by simp
    rw [hn] at e1 e3
    refine ⟨env', h', ?_, ?_, ?_⟩
    · rw [firsts, run, Ref.obj]
      simp only [iterObj]
      rw [run, Ref.obj]
      simpa [nextObj, hl] using e1
    · exact (by simp : env <+: env ++ [Obj.it h.length] ++ [Obj.val (f i)]).trans e2
    · intro k m hk
      rcases hk.cases with ⟨rfl, rfl⟩ | hk
      · exact get_prefix e2 (by simp)
      · exact e3 k m hk

theorem map_congr {α β : Type} (f g : α → β) : ∀ t : Tree α, (∀ x ∈ t.leaves, f x = g x) → t.map f = t.map g
  | .leaf x, h => by simp [Tree.map, h x (by simp [Tree.leaves])]
  | .app _ a b, h => by
    simp [Tree.map, map_congr f g a fun x hx => h x (by simp [Tree.leaves, hx]),
      map_congr f g b fun x hx => h x (by simp [Tree.leaves, hx])]

theorem eval_firsts (c : Nat → List V) (f : Nat → V) (op : Nat → V → V → V) : ∀ (S : Tree Nat) (h : Heap V),
    (∀ i ∈ S.leaves, (c i).head? = some (f i)) →
    ∃ h', evalTree (fun i => .items (c i)) op (S.map fun i => Tm.next (.iter (.input i))) h = (.ok ((S.map f).value op), h')
  | .leaf i, h, hc => by
    have := hc i (by simp [Tree.leaves])
    cases e : c i with
    | nil => rw [e] at this; cases this
    | cons x l =>
      rw [e] at this
      cases this
      refine ⟨h ++ [l], ?_⟩
      rw [Tree.map, evalTree, (C97_items c h (.input i) i rfl).1 _ _ e]
      rfl
  | .app g a b, h, hc => by
    obtain ⟨h1, e1⟩ := eval_firsts c f op a h fun i hi => hc i (by simp [Tree.leaves, hi])
    obtain ⟨h2, e2⟩ := eval_firsts c f op b h1 fun i hi => hc i (by simp [Tree.leaves, hi])
    refine ⟨h2, ?_⟩
    rw [Tree.map, evalTree, e1]
    simp only
    rw [e2]
    rfl

/-- If each iterator of a container is advanced once, then the values agree, in whatever order and however often the items are
used: the leaves of `R` are the position of a `next` statement and the variable it is about. -/
theorem C97_first_agrees (c : Nat → List V) (f : Nat → V) (op : Nat → V → V → V) (is : List Nat)
    (hc : ∀ i ∈ is, (c i).head? = some (f i)) (R : Tree (Nat × Nat)) (hR : ∀ x ∈ R.leaves, At 0 is x.1 x.2) :
    ∃ tms env h', trace (firsts 0 is) [] = some tms ∧ run (fun i => .items (c i)) (firsts 0 is) [] [] = (.ok env, h') ∧
      ∃ (T : Tree Tm) (O : Tree (Obj V)), T.map some = R.map (fun x => tms[x.1]?) ∧ O.map some = R.map (fun x => env[x.1]?) ∧
        (evalTree (fun i => .items (c i)) op T []).1 = direct op O ∧ direct op O = .ok ((R.map fun x => f x.2).value op) := by
  obtain ⟨tms, t1, _, t3⟩ := firsts_trace is []
  obtain ⟨env, h', e1, _, e3⟩ := firsts_run c f is [] [] hc
  refine ⟨tms, env, h', t1, e1, R.map fun x => Tm.next (.iter (.input x.2)), (R.map fun x => f x.2).map Obj.val, ?_, ?_, ?_, ?_⟩
  · rw [map_map]
    exact map_congr _ _ R fun x hx => (t3 x.1 x.2 (hR x hx)).symm
  · rw [map_map, map_map]
    exact map_congr _ _ R fun x hx => (e3 x.1 x.2 (hR x hx)).symm
  · have := eval_firsts c f op (R.map (·.2)) [] (by
      intro i hi
      rw [leaves_map] at hi
      obtain ⟨x, hx, rfl⟩ := List.mem_map.1 hi
      obtain ⟨j, _, hj⟩ := hR x hx
      exact hc _ (List.mem_of_getElem? hj))
    obtain ⟨h'', e⟩ := this
    rw [map_map, map_map] at e
    rw [e, direct_val]
  · exact direct_val op _

example : (∀ x ∈ (Tree.app 0 (.leaf (3, 7)) (.leaf (1, 5))).leaves, At 0 [5, 7] x.1 x.2) ∧
    (∀ i ∈ [5, 7], ([i, 0] : List Nat).head? = some i) := by
  refine ⟨?_, by decide⟩
  intro x hx
  simp only [Tree.leaves, List.cons_append, List.nil_append, List.mem_cons, List.not_mem_nil, or_false] at hx
  rcases hx with rfl | rfl
  · exact ⟨1, rfl, rfl⟩
  · exact ⟨0, rfl, rfl⟩

/-! ### Loops -/

theorem collect_spec (a : Nat) : ∀ (l : List V) (n : Nat) (h : Heap V) (acc : List V), h[a]? = some l → l.length < n →
    collect n (.it a) h acc = some (.ok (acc ++ l), h.set a [])
  | [], n + 1, h, acc, ha, _ => by
    have : h.set a [] = h := by
      apply List.ext_getElem?
      intro b
      rw [List.getElem?_set]
      by_cases e : a = b
      · subst e
        rw [if_pos rfl, if_pos (List.getElem?_eq_some_iff.1 ha).1, ha]
      · rw [if_neg e]
    rw [collect, nextObj, ha]
    simp [this]
  | x :: l, n + 1, h, acc, ha, hn => by
    rw [collect, nextObj, ha]
    simp only
    rw [collect_spec a l n _ _ (by simp [(List.getElem?_eq_some_iff.1 ha).1]) (by simpa using hn)]
    simp

/-- `list(it)` of an iterator gives what is left of it, and leaves nothing. -/
theorem C97_loop (a : Nat) (l : List V) (h : Heap V) (ha : h[a]? = some l) :
    ∃ N, ∀ n, N ≤ n → collect n (.it a) h [] = some (.ok l, h.set a []) :=
  ⟨l.length + 1, fun n hn => by simpa using collect_spec a l n h [] ha hn⟩

example : collect 3 (.it 0) [[1, 2]] [] = some (.ok [1, 2], [[]]) := rfl

/-- `list(t)` of a term does not end: `next` of a term is a term and never raises `StopIteration`. -/
theorem C97_loop_fails (t : Tm) (n : Nat) : collectTm n t [] = none := by
  suffices h : ∀ n acc, collectTm n t acc = none from h n []
  intro n
  induction n with
  | zero => intro acc; rfl
  | succ n ih => intro acc; exact ih _

end Verif.Terms.Iter
