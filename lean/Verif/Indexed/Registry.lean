/-!
# C110: library functions as operations

Functions of torch and jax become operations when they are called on terms: `_register_torch_op` (`handlers/torch.py` 228-264) and
`_register_jax_op` (`handlers/jax/_handlers.py` 123-156) make an operation for a function object and keep it in the table of
`functools.cache`. The functions of `jax.numpy` are registered when `effectful.handlers.jax.numpy` is imported
(`handlers/jax/numpy/__init__.py` 9-17), those of torch when they are called with a term (`_torch_function`, `torch.py` 338-350).
Some function objects are made when a program runs, and registered as well: that of `x.at[k].set(v)` (`jax/_terms.py` 39-56), and
those of `torch.func.grad` and the like (`torch.py` 636-718), of `log_prob` of a distribution (`numpyro.py` 314).

Simplifications. Of the functions that are made when a program runs, the model has those of `x.at[k].set(v)` for jax, and those of
`torch.func` for torch; `log_prob` registers its function for arrays without terms, too. Dimensions are not named, which is C107 and C109. Arguments are expressions, not containers of them. A handler of an
operation is a function of values, which leaves terms as they are. `x.at[k].set(v)` for an array `x` and terms `k` or `v`, an error
of jax, is taken as a term. Registering a function of `jax.numpy` when it is called first is the same as doing so before, but for the
numbers of the operations. Keys are tuples: `_torch_function` (343-348) makes a tuple of a single index, `jax_getitem` expects one.
-/

namespace Verif.Indexed.Registry

variable {α : Type}

/-! ## Model -/

inductive Backend
  | torch
  | jax

/-- Expressions in a program: values, variables `x()`, calls of functions of the library, and calls of functions that are made at this
place each time. -/
inductive Exp (α : Type) where
  | val (a : α)
  | var (n : Nat)
  | lib (f : Nat) (args : List (Exp α))
  | fresh (g : Nat) (args : List (Exp α))

/-- Function objects: those of the library, and those made when a program runs. -/
inductive Fun where
  | lib (f : Nat)
  | made (k : Nat)
  deriving DecidableEq

/-- Terms; operations are numbered in the order in which they are made. -/
inductive Tm (α : Type) where
  | val (a : α)
  | var (n : Nat)
  | app (op : Nat) (args : List (Tm α))

/-- What functions do with values. -/
structure World (α : Type) where
  /-- functions of the library -/
  call : Nat → List α → α
  /-- functions that are made at the place `g` -/
  made : Nat → List α → α
  /-- functions with the name `__getitem__` (`_handlers.py` 125), for torch the one of `TensorBase` (`torch.py` 230) -/
  index : Nat → Bool
  /-- the function in the definition of `jax_getitem` (178-184), `torch_getitem` (267-319) -/
  getitem : Nat

/-- The table of `functools.cache`, the functions of the operations made so far, and the places of the functions made so far. -/
structure St where
  cache : List (Fun × Nat)
  ops : List Fun
  made : List Nat

/-- After the import: `jax_getitem` and `torch_getitem` are the first operations. -/
def start (W : World α) : St := ⟨[(.lib W.getitem, 0)], [.lib W.getitem], []⟩

def isIndex (W : World α) : Fun → Bool
  | .lib f => W.index f
  | .made _ => false

/-- `_register_torch_op` and `_register_jax_op`. -/
def register (W : World α) (s : St) (f : Fun) : Nat × St :=
  match s.cache.lookup f with
  | some o => (o, s)
  | none =>
    if isIndex W f then (0, { s with cache := s.cache ++ [(f, 0)] })
    else (s.ops.length, { s with cache := s.cache ++ [(f, s.ops.length)], ops := s.ops ++ [f] })

/-- Handlers of operations and of variables. -/
structure Hd (α : Type) where
  op : Nat → Option (List α → α)
  var : Nat → Option α

/-- The arguments, if all of them are values. -/
def values : List (Tm α) → Option (List α)
  | [] => some []
  | .val a :: ts =>
    match values ts with
    | some vs => some (a :: vs)
    | none => none
  | _ :: _ => none

/-- What the operation does by default with values (`torch.py` 254-259, `_handlers.py` 146-151). -/
def default (W : World α) (s : St) (o : Nat) : List α → α :=
  match s.ops[o]? with
  | some (.lib f) => W.call f
  | some (.made k) => W.made (s.made.getD k 0)
  | none => W.call W.getitem

/-- A call of an operation. With terms among the arguments it is a term (260-261, 152-153). -/
def applyOp (W : World α) (H : Hd α) (s : St) (o : Nat) (ts : List (Tm α)) : Tm α :=
  match values ts with
  | some vs => .val ((H.op o).getD (default W s o) vs)
  | none => .app o ts

mutual
/-- A program runs. For torch, a function that gets no term is called without `__torch_function__`. For jax, `x.at` of an array is the
attribute of jax itself. -/
def run (B : Backend) (W : World α) (H : Hd α) : Exp α → St → Tm α × St
  | .val a, s => (.val a, s)
  | .var n, s =>
    match H.var n with
    | some a => (.val a, s)
    | none => (.var n, s)
  | .lib f as, s =>
    match B, values (runs B W H as s).1 with
    | .torch, some vs => (.val (W.call f vs), (runs B W H as s).2)
    | _, _ =>
      let q := register W (runs B W H as s).2 (.lib f)
      (applyOp W H q.2 q.1 (runs B W H as s).1, q.2)
  | .fresh g as, s =>
    match B, values (runs B W H as s).1 with
    | .jax, some vs => (.val (W.made g vs), (runs B W H as s).2)
    | _, _ =>
      let r := (runs B W H as s).2
      let q := register W { r with made := r.made ++ [g] } (.made r.made.length)
      (applyOp W H q.2 q.1 (runs B W H as s).1, q.2)

def runs (B : Backend) (W : World α) (H : Hd α) : List (Exp α) → St → List (Tm α) × St
  | [], s => ([], s)
  | e :: es, s =>
    let r := run B W H e s
    let q := runs B W H es r.2
    (r.1 :: q.1, q.2)
end

mutual
/-- `evaluate` of a term (`ops/semantics.py` 169-173). -/
def eval (W : World α) (H : Hd α) (s : St) : Tm α → Tm α
  | .val a => .val a
  | .var n =>
    match H.var n with
    | some a => .val a
    | none => .var n
  | .app o ts => applyOp W H s o (evals W H s ts)

def evals (W : World α) (H : Hd α) (s : St) : List (Tm α) → List (Tm α)
  | [] => []
  | t :: ts => eval W H s t :: evals W H s ts
end

/-! ## Specification -/

mutual
/-- All variables of the expression have values. -/
def known (env : Nat → Option α) : Exp α → Bool
  | .val _ => true
  | .var n => (env n).isSome
  | .lib _ as => knowns env as
  | .fresh _ as => knowns env as

def knowns (env : Nat → Option α) : List (Exp α) → Bool
  | [] => true
  | e :: es => known env e && knowns env es
end

mutual
/-- The value of an expression, with functions `call` of the library, which may depend on whether all arguments are known in `known₀`. -/
def den (call : Bool → Nat → List α → α) (made : Nat → List α → α) (known₀ : Nat → Option α) (env : Nat → α) : Exp α → α
  | .val a => a
  | .var n => env n
  | .lib f as => call (knowns known₀ as) f (dens call made known₀ env as)
  | .fresh g as => made g (dens call made known₀ env as)

def dens (call : Bool → Nat → List α → α) (made : Nat → List α → α) (known₀ : Nat → Option α) (env : Nat → α) :
    List (Exp α) → List α
  | [] => []
  | e :: es => den call made known₀ env e :: dens call made known₀ env es
end

/-- In the expression, a function that is made at its place is called with arguments that are not all known. -/
inductive Makes (env : Nat → Option α) : Exp α → Prop
  | here {g as} : knowns env as = false → Makes env (.fresh g as)
  | lib {f as a} : a ∈ as → Makes env a → Makes env (.lib f as)
  | fresh {g as a} : a ∈ as → Makes env a → Makes env (.fresh g as)

/-- Only functions of the library are called. -/
inductive Plain : Exp α → Prop
  | val (a) : Plain (.val a)
  | var (n) : Plain (.var n)
  | lib {f as} : (∀ a ∈ as, Plain a) → Plain (.lib f as)

/-- States that a program may reach from the state `s`: expressions run, under any handlers, and operations are looked up. -/
inductive From (B : Backend) (W : World α) (s : St) : St → Prop
  | refl : From B W s s
  | run {s' : St} (H : Hd α) (e : Exp α) : From B W s s' → From B W s (run B W H e s').2
  | op {s' : St} (f : Nat) : From B W s s' → From B W s (register W s' (.lib f)).2

/-- No operation of the library is handled. -/
def Unhandled (H : Hd α) : Prop := ∀ o, H.op o = none

/-- Of the operations, the one of the function `f` is handled, by `h`. -/
def Handles (W : World α) (s : St) (f : Nat) (h : List α → α) (H : Hd α) : Prop :=
  H.op (register W s (.lib f)).1 = some h ∧ ∀ o, o ≠ (register W s (.lib f)).1 → H.op o = none

/-- The functions of the library with `h` for `f`; all functions `__getitem__` count as one. -/
def instead (W : World α) (f : Nat) (h : List α → α) (f' : Nat) : List α → α :=
  if f' = f ∨ ((W.index f = true ∨ f = W.getitem) ∧ (W.index f' = true ∨ f' = W.getitem)) then h else W.call f'

/-- The states after `n` runs of an expression. -/
def times (B : Backend) (W : World α) (H : Hd α) (e : Exp α) : Nat → St → St
  | 0, s => s
  | n + 1, s => times B W H e n (run B W H e s).2

/-- What holds in all states: operations and functions belong together, except that all functions `__getitem__` have the first operation. -/
structure Ok (W : World α) (s : St) : Prop where
  first : s.ops[0]? = some (.lib W.getitem)
  cached : ∀ f o, s.cache.lookup f = some o → isIndex W f = true ∧ o = 0 ∨ s.ops[o]? = some f
  op : ∀ o f, s.ops[o]? = some f → s.cache.lookup f = some o
  made : ∀ k o, s.cache.lookup (.made k) = some o → k < s.made.length
  index : ∀ f o, isIndex W f = true → s.cache.lookup f = some o → o = 0

/-- A later state: nothing is removed. -/
structure Later (s s' : St) : Prop where
  cache : ∀ f o, s.cache.lookup f = some o → s'.cache.lookup f = some o
  ops : s.ops <+: s'.ops
  made : s.made <+: s'.made

/-! ## Lemmas -/

theorem Later.refl (s : St) : Later s s := ⟨fun _ _ h => h, List.prefix_refl _, List.prefix_refl _⟩

theorem Later.trans {a b c : St} (h : Later a b) (h' : Later b c) : Later a c :=
  ⟨fun f o e => h'.cache f o (h.cache f o e), h.ops.trans h'.ops, h.made.trans h'.made⟩

theorem prefix_get {β : Type} {l l' : List β} (h : l <+: l') {i : Nat} {x : β} (e : l[i]? = some x) : l'[i]? = some x := by
  obtain ⟨r, rfl⟩ := h
  have := (List.getElem?_eq_some_iff.1 e).1
  rw [List.getElem?_append_left this]; exact e

theorem start_ok (W : World α) : Ok W (start W) := by
  refine ⟨rfl, fun f o h => ?_, fun o f h => ?_, fun k o h => ?_, fun f o _ h => ?_⟩
  · simp only [start, List.lookup] at h
    split at h
    · rename_i e
      cases h
      rw [beq_iff_eq] at e
      subst e
      exact .inr rfl
    · cases h
  · cases o with
    | zero => simp [start] at h; subst h; simp [start]
    | succ o => simp [start] at h
  · simp only [start, List.lookup] at h
    split at h
    · rename_i e; rw [beq_iff_eq] at e; cases e
    · cases h
  · simp only [start, List.lookup] at h
    split at h
    · cases h; rfl
    · cases h

theorem lookup_snoc {β : Type} (l : List (Fun × β)) (f g : Fun) (b : β) :
    (l ++ [(f, b)]).lookup g = (l.lookup g).or (if g = f then some b else none) := by
  induction l with
  | nil =>
    by_cases h : g = f
    · simp [List.lookup, h]
    · have : (g == f) = false := beq_eq_false_iff_ne.2 h
      simp [List.lookup, h, this]
  | cons x l ih =>
    obtain ⟨k, c⟩ := x
    simp only [List.cons_append, List.lookup]
    split
    · rfl
    · exact ih

theorem register_spec (W : World α) {s : St} (hs : Ok W s) (f : Fun) (hf : ∀ k, f = .made k → k < s.made.length) :
    Ok W (register W s f).2 ∧ Later s (register W s f).2 ∧
      (register W s f).2.cache.lookup f = some (register W s f).1 ∧ (register W s f).2.made = s.made := by
  unfold register
  cases h : s.cache.lookup f with
  | some o => exact ⟨hs, .refl s, h, rfl⟩
  | none =>
    by_cases hi : isIndex W f = true
    · simp only [hi, if_true]
      refine ⟨⟨hs.first, fun g o hg => ?_, fun o g hg => ?_, fun k o hk => ?_, fun g o hx hg => ?_⟩,
        ⟨fun g o hg => ?_, List.prefix_refl _, List.prefix_refl _⟩,
        ?_, trivial⟩
      · rw [lookup_snoc] at hg
        cases hl : s.cache.lookup g with
        | some p =>
          rw [hl] at hg
          cases hg
          exact hs.cached g _ hl
        | none =>
          rw [hl] at hg
          by_cases e : g = f
          · subst e; simp at hg; exact .inl ⟨hi, hg.symm⟩
          · simp [e] at hg
      · rw [lookup_snoc, hs.op o g hg]; rfl
      · rw [lookup_snoc] at hk
        cases hl : s.cache.lookup (.made k) with
        | some p => exact hs.made k p hl
        | none =>
          rw [hl] at hk
          by_cases e : Fun.made k = f
          · exact hf k e.symm
          · simp [e] at hk
      · rw [lookup_snoc] at hg
        cases hl : s.cache.lookup g with
        | some p =>
          rw [hl] at hg
          cases hg
          exact hs.index g _ hx hl
        | none =>
          rw [hl] at hg
          by_cases e : g = f
          · subst e; simp at hg; exact hg.symm
          · simp [e] at hg
      · rw [lookup_snoc, hg]; rfl
      · rw [lookup_snoc, h]; simp
    · simp only [hi]
      refine ⟨⟨prefix_get (List.prefix_append _ _) hs.first, fun g o hg => ?_, fun o g hg => ?_, fun k o hk => ?_, fun g o hx hg => ?_⟩,
        ⟨fun g o hg => ?_, List.prefix_append _ _, List.prefix_refl _⟩, ?_, rfl⟩
      · simp only [Bool.false_eq_true, if_false] at hg ⊢
        rw [lookup_snoc] at hg
        cases hl : s.cache.lookup g with
        | some p =>
          rw [hl] at hg
          cases hg
          rcases hs.cached g _ hl with h' | h'
          · exact .inl h'
          · exact .inr (prefix_get (List.prefix_append _ _) h')
        | none =>
          rw [hl] at hg
          by_cases e : g = f
          · subst e; simp at hg; subst hg; exact .inr (by simp)
          · simp [e] at hg
      · simp only [Bool.false_eq_true, if_false] at hg ⊢
        rw [lookup_snoc]
        by_cases ho : o < s.ops.length
        · rw [List.getElem?_append_left ho] at hg
          rw [hs.op o g hg]; rfl
        · have : o = s.ops.length := by
            have := (List.getElem?_eq_some_iff.1 hg).1
            simp at this; omega
          subst this
          simp at hg
          subst hg
          rw [h]; simp
      · simp only [Bool.false_eq_true, if_false] at hk ⊢
        rw [lookup_snoc] at hk
        cases hl : s.cache.lookup (.made k) with
        | some p => exact hs.made k p hl
        | none =>
          rw [hl] at hk
          by_cases e : Fun.made k = f
          · exact hf k e.symm
          · simp [e] at hk
      · simp only [Bool.false_eq_true, if_false] at hg ⊢
        rw [lookup_snoc] at hg
        cases hl : s.cache.lookup g with
        | some p =>
          rw [hl] at hg
          cases hg
          exact hs.index g _ hx hl
        | none =>
          rw [hl] at hg
          by_cases e : g = f
          · subst e; exact absurd hx hi
          · simp [e] at hg
      · simp only [Bool.false_eq_true, if_false]
        rw [lookup_snoc, hg]; rfl
      · simp only [Bool.false_eq_true, if_false]
        rw [lookup_snoc, h]; simp

theorem register_cached (W : World α) {s : St} {f : Fun} {o : Nat} (h : s.cache.lookup f = some o) : register W s f = (o, s) := by
  simp [register, h]

/-- One more function object. -/
theorem made_ok (W : World α) {s : St} (hs : Ok W s) (g : Nat) :
    Ok W { s with made := s.made ++ [g] } ∧ Later s { s with made := s.made ++ [g] } :=
  ⟨⟨hs.first, hs.cached, hs.op, fun k o h => by have := hs.made k o h; simp; omega, hs.index⟩,
    ⟨fun _ _ h => h, List.prefix_refl _, List.prefix_append _ _⟩⟩

/-- The new function object is not registered yet. -/
theorem made_new (W : World α) {s : St} (hs : Ok W s) : s.cache.lookup (.made s.made.length) = none := by
  cases h : s.cache.lookup (.made s.made.length) with
  | none => rfl
  | some o => exact absurd (hs.made _ _ h) (Nat.lt_irrefl _)

/-- Registering the new function object. -/
theorem register_new (W : World α) {s : St} (hs : Ok W s) (g : Nat) :
    register W { s with made := s.made ++ [g] } (.made s.made.length) =
      (s.ops.length, ⟨s.cache ++ [(.made s.made.length, s.ops.length)], s.ops ++ [.made s.made.length], s.made ++ [g]⟩) := by
  simp [register, made_new W hs, isIndex]

theorem register_new_spec (W : World α) {s : St} (hs : Ok W s) (g : Nat) :
    Ok W (register W { s with made := s.made ++ [g] } (.made s.made.length)).2 ∧
      Later s (register W { s with made := s.made ++ [g] } (.made s.made.length)).2 := by
  obtain ⟨h1, h2⟩ := made_ok W hs g
  obtain ⟨h3, h4, _⟩ := register_spec W h1 (.made s.made.length) (fun k e => by cases e; simp)
  exact ⟨h3, h2.trans h4⟩

mutual
theorem run_ok (B : Backend) (W : World α) (H : Hd α) : ∀ (e : Exp α) (s : St), Ok W s →
    Ok W (run B W H e s).2 ∧ Later s (run B W H e s).2
  | .val a, s, hs => ⟨hs, .refl s⟩
  | .var n, s, hs => by
    simp only [run]
    split <;> exact ⟨hs, .refl s⟩
  | .lib f as, s, hs => by
    obtain ⟨h1, h2⟩ := runs_ok B W H as s hs
    have hr := register_spec W h1 (.lib f) (fun k e => by cases e)
    simp only [run]
    split
    · exact ⟨h1, h2⟩
    · exact ⟨hr.1, h2.trans hr.2.1⟩
  | .fresh g as, s, hs => by
    obtain ⟨h1, h2⟩ := runs_ok B W H as s hs
    have hr := register_new_spec W h1 g
    simp only [run]
    split
    · exact ⟨h1, h2⟩
    · exact ⟨hr.1, h2.trans hr.2⟩

theorem runs_ok (B : Backend) (W : World α) (H : Hd α) : ∀ (es : List (Exp α)) (s : St), Ok W s →
    Ok W (runs B W H es s).2 ∧ Later s (runs B W H es s).2
  | [], s, hs => ⟨hs, .refl s⟩
  | e :: es, s, hs => by
    obtain ⟨h1, h2⟩ := run_ok B W H e s hs
    obtain ⟨h3, h4⟩ := runs_ok B W H es _ h1
    exact ⟨h3, h2.trans h4⟩
end

/-- Values are values. -/
theorem values_map (ts : List (Tm α)) (vs : List α) : values ts = some vs ↔ ts = vs.map .val := by
  induction ts generalizing vs with
  | nil => cases vs <;> simp [values]
  | cons t ts ih =>
    cases t with
    | val a =>
      simp only [values]
      cases vs with
      | nil => split <;> simp
      | cons v vs =>
        cases h : values ts with
        | some us =>
          have := (ih us).1 h
          subst this
          simp only [Option.some.injEq, List.cons.injEq, List.map_cons, Tm.val.injEq]
          constructor
          · rintro ⟨rfl, rfl⟩; exact ⟨rfl, rfl⟩
          · rintro ⟨rfl, e⟩
            refine ⟨rfl, ?_⟩
            have hi : ∀ a b : List α, a.map Tm.val = b.map Tm.val → a = b := by
              intro a
              induction a with
              | nil => intro b hb; cases b with
                | nil => rfl
                | cons => cases hb
              | cons x a iha => intro b hb; cases b with
                | nil => cases hb
                | cons y b =>
                  simp only [List.map_cons, List.cons.injEq, Tm.val.injEq] at hb
                  rw [hb.1, iha b hb.2]
            exact hi _ _ e
        | none =>
          simp only [List.map_cons, List.cons.injEq, Tm.val.injEq]
          refine ⟨fun h => (by cases h), ?_⟩
          rintro ⟨_, e⟩
          have := (ih vs).2 e
          rw [h] at this; cases this
    | var n => cases vs <;> simp [values]
    | app o as => cases vs <;> simp [values]

mutual
/-- All operations in the term are among the first `n`. -/
def below (n : Nat) : Tm α → Prop
  | .val _ => True
  | .var _ => True
  | .app o ts => o < n ∧ belows n ts

def belows (n : Nat) : List (Tm α) → Prop
  | [] => True
  | t :: ts => below n t ∧ belows n ts
end

mutual
theorem below_mono {n m : Nat} (h : n ≤ m) : ∀ t : Tm α, below n t → below m t
  | .val _, _ => trivial
  | .var _, _ => trivial
  | .app _ ts, ht => ⟨Nat.lt_of_lt_of_le ht.1 h, belows_mono h ts ht.2⟩

theorem belows_mono {n m : Nat} (h : n ≤ m) : ∀ ts : List (Tm α), belows n ts → belows m ts
  | [], _ => trivial
  | t :: ts, ht => ⟨below_mono h t ht.1, belows_mono h ts ht.2⟩
end

mutual
/-- The value of a term. -/
def tden (W : World α) (H : Hd α) (s : St) (env : Nat → α) : Tm α → α
  | .val a => a
  | .var n => env n
  | .app o ts => (H.op o).getD (default W s o) (tdens W H s env ts)

def tdens (W : World α) (H : Hd α) (s : St) (env : Nat → α) : List (Tm α) → List α
  | [] => []
  | t :: ts => tden W H s env t :: tdens W H s env ts
end

theorem tdens_vals (W : World α) (H : Hd α) (s : St) (env : Nat → α) (vs : List α) : tdens W H s env (vs.map .val) = vs := by
  induction vs with
  | nil => rfl
  | cons v vs ih => simp only [List.map_cons, tdens, tden, ih]

mutual
theorem eval_tden (W : World α) (H H' : Hd α) (hop : H'.op = H.op) (s : St) (env : Nat → α) (hv : ∀ n, H'.var n = some (env n)) :
    ∀ t : Tm α, eval W H' s t = .val (tden W H s env t)
  | .val a => rfl
  | .var n => by simp only [eval, hv, tden]
  | .app o ts => by
    simp only [eval, applyOp, (values_map _ _).2 (evals_tdens W H H' hop s env hv ts), tden, hop]

theorem evals_tdens (W : World α) (H H' : Hd α) (hop : H'.op = H.op) (s : St) (env : Nat → α) (hv : ∀ n, H'.var n = some (env n)) :
    ∀ ts : List (Tm α), evals W H' s ts = (tdens W H s env ts).map .val
  | [] => rfl
  | t :: ts => by
    simp only [evals, tdens, List.map_cons, eval_tden W H H' hop s env hv t, evals_tdens W H H' hop s env hv ts]
end

theorem default_later {W : World α} {s s' : St} (hs : Ok W s) (h : Later s s') {o : Nat} (ho : o < s.ops.length) :
    default W s' o = default W s o := by
  have e : s.ops[o]? = some s.ops[o] := List.getElem?_eq_getElem ho
  have e' := prefix_get h.ops e
  unfold default
  rw [e, e']
  cases hf : s.ops[o] with
  | lib f => rfl
  | made k =>
    rw [hf] at e
    have hk := hs.made k o (hs.op _ _ e)
    have h1 : s.made[k]? = some s.made[k] := List.getElem?_eq_getElem hk
    have h2 := prefix_get h.made h1
    simp [List.getD, h1, h2]

mutual
theorem tden_later {W : World α} (H : Hd α) {s s' : St} (hs : Ok W s) (h : Later s s') (env : Nat → α) :
    ∀ t : Tm α, below s.ops.length t → tden W H s' env t = tden W H s env t
  | .val _, _ => rfl
  | .var _, _ => rfl
  | .app o ts, ht => by simp only [tden, default_later hs h ht.1, tdens_later H hs h env ts ht.2]

theorem tdens_later {W : World α} (H : Hd α) {s s' : St} (hs : Ok W s) (h : Later s s') (env : Nat → α) :
    ∀ ts : List (Tm α), belows s.ops.length ts → tdens W H s' env ts = tdens W H s env ts
  | [], _ => rfl
  | t :: ts, ht => by simp only [tdens, tden_later H hs h env t ht.1, tdens_later H hs h env ts ht.2]
end

theorem Later.length {s s' : St} (h : Later s s') : s.ops.length ≤ s'.ops.length := h.ops.length_le

/-- An operation that is in the table has been made. -/
theorem Ok.lt {W : World α} {s : St} (hs : Ok W s) {f : Fun} {o : Nat} (h : s.cache.lookup f = some o) : o < s.ops.length := by
  rcases hs.cached f o h with ⟨_, rfl⟩ | h'
  · exact (List.getElem?_eq_some_iff.1 hs.first).1
  · exact (List.getElem?_eq_some_iff.1 h').1

theorem applyOp_below (W : World α) (H : Hd α) (s : St) (o : Nat) (ts : List (Tm α)) (n : Nat) (ho : o < n) (ht : belows n ts) :
    below n (applyOp W H s o ts) := by
  unfold applyOp
  split
  · trivial
  · exact ⟨ho, ht⟩

mutual
theorem run_below (B : Backend) (W : World α) (H : Hd α) : ∀ (e : Exp α) (s : St), Ok W s →
    below (run B W H e s).2.ops.length (run B W H e s).1
  | .val a, s, _ => trivial
  | .var n, s, _ => by
    simp only [run]
    split <;> trivial
  | .lib f as, s, hs => by
    have h1 := (runs_ok B W H as s hs).1
    have hb := runs_below B W H as s hs
    have hr := register_spec W h1 (.lib f) (fun k e => by cases e)
    simp only [run]
    split
    · trivial
    · exact applyOp_below W H _ _ _ _ (hr.1.lt hr.2.2.1) (belows_mono hr.2.1.length _ hb)
  | .fresh g as, s, hs => by
    have h1 := (runs_ok B W H as s hs).1
    have hb := runs_below B W H as s hs
    have hr := register_new_spec W h1 g
    simp only [run]
    split
    · trivial
    · refine applyOp_below W H _ _ _ _ ?_ (belows_mono hr.2.length _ hb)
      simp [register_new W h1]

theorem runs_below (B : Backend) (W : World α) (H : Hd α) : ∀ (es : List (Exp α)) (s : St), Ok W s →
    belows (runs B W H es s).2.ops.length (runs B W H es s).1
  | [], s, _ => trivial
  | e :: es, s, hs => by
    have h1 := run_ok B W H e s hs
    have h2 := runs_ok B W H es _ h1.1
    exact ⟨below_mono h2.2.length _ (run_below B W H e s hs), runs_below B W H es _ h1.1⟩
end

/-- Functions of the library that are called in a program and by `evaluate`: torch calls those of the library itself where no argument is
a term. -/
def called (B : Backend) (W : World α) (callH callK : Nat → List α → α) : Bool → Nat → List α → α :=
  fun b f => match b, B with
    | false, _ => callK f
    | true, .torch => W.call f
    | true, .jax => callH f

/-- With the handlers `H`, operations of the library do what `call` does, from the state `s₀` on. -/
def Fits (W : World α) (H : Hd α) (call : Nat → List α → α) (s₀ : St) : Prop :=
  ∀ s, Ok W s → Later s₀ s → ∀ o f, s.ops[o]? = some f →
    (H.op o).getD (default W s o) = match f with
      | .lib f => call f
      | .made k => W.made (s.made.getD k 0)

mutual
theorem run_den (B : Backend) (W : World α) (H K : Hd α) (callH callK : Nat → List α → α) (s₀ : St) (hH : Fits W H callH s₀)
    (hK : Fits W K callK s₀) (iH : ∀ f, W.index f = true → callH f = callH W.getitem)
    (iK : ∀ f, W.index f = true → callK f = callK W.getitem) (env : Nat → α) (hv : ∀ n a, H.var n = some a → env n = a) :
    ∀ (e : Exp α) (s : St), Ok W s → Later s₀ s →
      tden W K (run B W H e s).2 env (run B W H e s).1 = den (called B W callH callK) W.made H.var env e ∧
      (known H.var e = true ↔ ∃ a, (run B W H e s).1 = .val a)
  | .val a, s, _, _ => ⟨rfl, by simp [known, run]⟩
  | .var n, s, _, _ => by
    simp only [run, known, den]
    cases h : H.var n with
    | some a => exact ⟨(hv n a h).symm, by simp⟩
    | none => exact ⟨rfl, by simp⟩
  | .lib f as, s, hs, hl => by
    obtain ⟨h1, h2⟩ := runs_ok B W H as s hs
    have hb := runs_below B W H as s hs
    obtain ⟨hd, hk⟩ := runs_den B W H K callH callK s₀ hH hK iH iK env hv as s hs hl
    obtain ⟨r1, r2, r3, _⟩ := register_spec W h1 (.lib f) (fun k e => by cases e)
    have hop : ∀ (G : Hd α) (call : Nat → List α → α), Fits W G call s₀ → (∀ f, W.index f = true → call f = call W.getitem) →
        ((G.op (register W (runs B W H as s).2 (.lib f)).1).getD
          (default W (register W (runs B W H as s).2 (.lib f)).2 (register W (runs B W H as s).2 (.lib f)).1)) = call f := by
      intro G call hG hi
      rcases r1.cached _ _ r3 with ⟨hx, h0⟩ | h'
      · rw [h0, hG _ r1 ((hl.trans h2).trans r2) 0 _ r1.first, hi f hx]
      · exact hG _ r1 ((hl.trans h2).trans r2) _ _ h'
    simp only [run, known, den]
    cases hvs : values (runs B W H as s).1 with
    | some vs =>
      have hk' : knowns H.var as = true := hk.2 ⟨vs, hvs⟩
      rw [(values_map _ _).1 hvs, tdens_vals] at hd
      cases B with
      | torch =>
        refine ⟨?_, by simp [hk']⟩
        simp only [tden, hk', called, hd]
      | jax =>
        refine ⟨?_, by simp [hk', applyOp, hvs]⟩
        simp only [applyOp, hvs, hop H callH hH iH, tden, hk', called, hd]
    | none =>
      have hk' : knowns H.var as = false := by
        rw [← Bool.not_eq_true]
        intro h
        obtain ⟨vs, e⟩ := hk.1 h
        rw [hvs] at e; cases e
      have hreg := tdens_later K h1 r2 env _ hb
      rw [hd] at hreg
      cases B with
      | torch =>
        refine ⟨?_, by simp [hk', applyOp, hvs]⟩
        simp only [applyOp, hvs, tden, hop K callK hK iK, hreg, hk', called]
      | jax =>
        refine ⟨?_, by simp [hk', applyOp, hvs]⟩
        simp only [applyOp, hvs, tden, hop K callK hK iK, hreg, hk', called]
  | .fresh g as, s, hs, hl => by
    obtain ⟨h1, h2⟩ := runs_ok B W H as s hs
    have hb := runs_below B W H as s hs
    obtain ⟨hd, hk⟩ := runs_den B W H K callH callK s₀ hH hK iH iK env hv as s hs hl
    obtain ⟨r1, r2⟩ := register_new_spec W h1 g
    have hop : ∀ (G : Hd α) (call : Nat → List α → α), Fits W G call s₀ →
        ∀ q, q = register W { (runs B W H as s).2 with made := (runs B W H as s).2.made ++ [g] }
          (.made (runs B W H as s).2.made.length) → (G.op q.1).getD (default W q.2 q.1) = W.made g := by
      rintro G call hG _ rfl
      have hop := hG _ r1 ((hl.trans h2).trans r2) (runs B W H as s).2.ops.length (.made (runs B W H as s).2.made.length)
        (by simp [register_new W h1])
      have e : (register W { (runs B W H as s).2 with made := (runs B W H as s).2.made ++ [g] }
        (.made (runs B W H as s).2.made.length)).1 = (runs B W H as s).2.ops.length := by rw [register_new W h1]
      rw [e, hop, register_new W h1]
      simp
    simp only [run, known, den]
    cases hvs : values (runs B W H as s).1 with
    | some vs =>
      have hk' : knowns H.var as = true := hk.2 ⟨vs, hvs⟩
      rw [(values_map _ _).1 hvs, tdens_vals] at hd
      cases B with
      | jax =>
        refine ⟨?_, by simp [hk']⟩
        simp only [tden, hd]
      | torch =>
        refine ⟨?_, by simp [hk', applyOp, hvs]⟩
        simp only [applyOp, hvs, hop H callH hH _ rfl, tden, hd]
    | none =>
      have hk' : knowns H.var as = false := by
        rw [← Bool.not_eq_true]
        intro h
        obtain ⟨vs, e⟩ := hk.1 h
        rw [hvs] at e; cases e
      have hreg := tdens_later K h1 r2 env _ hb
      rw [hd] at hreg
      cases B with
      | torch =>
        refine ⟨?_, by simp [hk', applyOp, hvs]⟩
        simp only [applyOp, hvs, tden, hop K callK hK _ rfl, hreg]
      | jax =>
        refine ⟨?_, by simp [hk', applyOp, hvs]⟩
        simp only [applyOp, hvs, tden, hop K callK hK _ rfl, hreg]

theorem runs_den (B : Backend) (W : World α) (H K : Hd α) (callH callK : Nat → List α → α) (s₀ : St) (hH : Fits W H callH s₀)
    (hK : Fits W K callK s₀) (iH : ∀ f, W.index f = true → callH f = callH W.getitem)
    (iK : ∀ f, W.index f = true → callK f = callK W.getitem) (env : Nat → α) (hv : ∀ n a, H.var n = some a → env n = a) :
    ∀ (es : List (Exp α)) (s : St), Ok W s → Later s₀ s →
      tdens W K (runs B W H es s).2 env (runs B W H es s).1 = dens (called B W callH callK) W.made H.var env es ∧
      (knowns H.var es = true ↔ ∃ vs, values (runs B W H es s).1 = some vs)
  | [], s, _, _ => ⟨rfl, by simp [knowns, runs, values]⟩
  | e :: es, s, hs, hl => by
    obtain ⟨h1, h2⟩ := run_ok B W H e s hs
    obtain ⟨h3, h4⟩ := runs_ok B W H es _ h1
    obtain ⟨d1, k1⟩ := run_den B W H K callH callK s₀ hH hK iH iK env hv e s hs hl
    obtain ⟨d2, k2⟩ := runs_den B W H K callH callK s₀ hH hK iH iK env hv es _ h1 (hl.trans h2)
    refine ⟨?_, ?_⟩
    · simp only [runs, tdens, dens, d2]
      rw [tden_later K h1 h4 env _ (run_below B W H e s hs), d1]
    · simp only [runs, knowns, Bool.and_eq_true, k1, k2]
      constructor
      · rintro ⟨⟨a, ha⟩, vs, hvs⟩
        exact ⟨a :: vs, by simp [ha, values, hvs]⟩
      · rintro ⟨ws, h⟩
        have := (values_map _ _).1 h
        cases ws with
        | nil => cases this
        | cons w ws =>
          simp only [List.map_cons, List.cons.injEq] at this
          exact ⟨⟨w, this.1⟩, ws, (values_map _ _).2 this.2⟩
end

/-! Known arguments, operations that are made, and running again. -/

mutual
theorem run_known (B : Backend) (W : World α) (H : Hd α) : ∀ (e : Exp α) (s : St),
    known H.var e = true ↔ ∃ a, (run B W H e s).1 = .val a
  | .val a, s => by simp [known, run]
  | .var n, s => by
    simp only [run, known]
    cases h : H.var n <;> simp
  | .lib f as, s => by
    simp only [run, known, runs_known B W H as s]
    cases B <;> cases hvs : values (runs _ W H as s).1 <;> simp [applyOp, hvs]
  | .fresh g as, s => by
    simp only [run, known, runs_known B W H as s]
    cases B <;> cases hvs : values (runs _ W H as s).1 <;> simp [applyOp, hvs]

theorem runs_known (B : Backend) (W : World α) (H : Hd α) : ∀ (es : List (Exp α)) (s : St),
    knowns H.var es = true ↔ ∃ vs, values (runs B W H es s).1 = some vs
  | [], s => by simp [knowns, runs, values]
  | e :: es, s => by
    simp only [runs, knowns, Bool.and_eq_true, run_known B W H e s, runs_known B W H es (run B W H e s).2]
    constructor
    · rintro ⟨⟨a, ha⟩, vs, hvs⟩
      exact ⟨a :: vs, by simp [ha, values, hvs]⟩
    · rintro ⟨ws, h⟩
      have := (values_map _ _).1 h
      cases ws with
      | nil => cases this
      | cons w ws =>
        simp only [List.map_cons, List.cons.injEq] at this
        exact ⟨⟨w, this.1⟩, ws, (values_map _ _).2 this.2⟩
end

theorem knowns_mem {env : Nat → Option α} {as : List (Exp α)} (h : knowns env as = true) : ∀ a ∈ as, known env a = true := by
  induction as with
  | nil => simp
  | cons b as ih =>
    simp only [knowns, Bool.and_eq_true] at h
    intro a ha
    rcases List.mem_cons.1 ha with rfl | ha
    · exact h.1
    · exact ih h.2 a ha

theorem makes_unknown {env : Nat → Option α} {e : Exp α} (h : Makes env e) : known env e = false := by
  induction h with
  | here h => exact h
  | lib ha _ ih =>
    rw [← Bool.not_eq_true]
    intro hk
    rw [knowns_mem hk _ ha] at ih; cases ih
  | fresh ha _ ih =>
    rw [← Bool.not_eq_true]
    intro hk
    rw [knowns_mem hk _ ha] at ih; cases ih

theorem values_unknown (B : Backend) (W : World α) (H : Hd α) {as : List (Exp α)} (s : St) (h : knowns H.var as = false) :
    values (runs B W H as s).1 = none := by
  cases hv : values (runs B W H as s).1 with
  | none => rfl
  | some vs =>
    rw [(runs_known B W H as s).2 ⟨vs, hv⟩] at h; cases h

theorem run_lib_unknown (B : Backend) (W : World α) (H : Hd α) {f : Nat} {as : List (Exp α)} (s : St)
    (h : knowns H.var as = false) : ∃ o, (run B W H (.lib f as) s).1 = .app o (runs B W H as s).1 := by
  have hv := values_unknown B W H s h
  simp only [run]
  cases B <;> simp [hv, applyOp]

theorem run_fresh_unknown (B : Backend) (W : World α) (H : Hd α) {g : Nat} {as : List (Exp α)} {s : St} (hs : Ok W s)
    (h : knowns H.var as = false) :
    (run B W H (.fresh g as) s).1 = .app (runs B W H as s).2.ops.length (runs B W H as s).1 := by
  have hv := values_unknown B W H s h
  have h1 := (runs_ok B W H as s hs).1
  simp only [run]
  cases B <;> simp only [hv, applyOp, register_new W h1]

mutual
theorem run_makes (B : Backend) (W : World α) (H : Hd α) : ∀ (e : Exp α) (s : St), Ok W s → Makes H.var e →
    ¬ below s.ops.length (run B W H e s).1
  | .val a, s, _, h => by cases h
  | .var n, s, _, h => by cases h
  | .lib f as, s, hs, h => by
    obtain ⟨o, ho⟩ := run_lib_unknown B W H (f := f) s (makes_unknown h)
    rw [ho]
    cases h with
    | lib ha hm => exact fun hb => runs_makes B W H as s hs ⟨_, ha, hm⟩ hb.2
  | .fresh g as, s, hs, h => by
    rw [run_fresh_unknown B W H hs (makes_unknown h)]
    cases h with
    | here _ => exact fun hb => absurd hb.1 (Nat.not_lt.2 (runs_ok B W H as s hs).2.length)
    | fresh ha hm => exact fun hb => runs_makes B W H as s hs ⟨_, ha, hm⟩ hb.2

theorem runs_makes (B : Backend) (W : World α) (H : Hd α) : ∀ (es : List (Exp α)) (s : St), Ok W s → (∃ e ∈ es, Makes H.var e) →
    ¬ belows s.ops.length (runs B W H es s).1
  | [], s, _, h => by simp at h
  | e :: es, s, hs, h => by
    obtain ⟨h1, h2⟩ := run_ok B W H e s hs
    simp only [runs]
    by_cases he : Makes H.var e
    · exact fun hb => run_makes B W H e s hs he hb.1
    · have : ∃ e ∈ es, Makes H.var e := by
        obtain ⟨a, ha, hm⟩ := h
        rcases List.mem_cons.1 ha with rfl | ha
        · exact absurd hm he
        · exact ⟨a, ha, hm⟩
      exact fun hb => runs_makes B W H es _ h1 this (belows_mono h2.length _ hb.2)
end

mutual
theorem run_again (B : Backend) (W : World α) (H : Hd α) (n : Nat) (hn : ∀ o, n ≤ o → H.op o = none) :
    ∀ (e : Exp α) (s s' : St), Ok W s → Ok W s' → n ≤ s.ops.length → Later (run B W H e s).2 s' → ¬ Makes H.var e →
      (run B W H e s').1 = (run B W H e s).1
  | .val a, s, s', _, _, _, _, _ => rfl
  | .var m, s, s', _, _, _, _, _ => by
    simp only [run]
    split <;> rfl
  | .lib f as, s, s', hs, hs', hle, hl, hm => by
    obtain ⟨h1, h2⟩ := runs_ok B W H as s hs
    obtain ⟨h1', h2'⟩ := runs_ok B W H as s' hs'
    obtain ⟨r1, r2, r3, _⟩ := register_spec W h1 (.lib f) (fun k e => by cases e)
    have hlr : Later (runs B W H as s).2 s' := by
      refine Later.trans ?_ hl
      simp only [run]
      split
      · exact .refl _
      · exact r2
    have ha := runs_again B W H n hn as s s' hs hs' hle hlr (fun a ha hma => hm (.lib ha hma))
    simp only [run, ha]
    cases hvs : values (runs B W H as s).1 with
    | some vs =>
      cases B with
      | torch => rfl
      | jax =>
        have hc := (hl.trans h2').cache (.lib f) _ (by simp only [run]; exact r3)
        have hlt : Later (register W (runs .jax W H as s).2 (.lib f)).2 (runs .jax W H as s').2 := hl.trans h2'
        rw [register_cached W hc]
        simp only [applyOp, hvs]
        rw [default_later r1 hlt (r1.lt r3)]
    | none =>
      have hl' : Later (register W (runs B W H as s).2 (.lib f)).2 s' := by
        cases B <;> simpa only [run, hvs] using hl
      have hc := (hl'.trans h2').cache (.lib f) _ r3
      cases B <;> simp only [register_cached W hc, applyOp, hvs]
  | .fresh g as, s, s', hs, hs', hle, hl, hm => by
    obtain ⟨h1, h2⟩ := runs_ok B W H as s hs
    obtain ⟨h1', h2'⟩ := runs_ok B W H as s' hs'
    obtain ⟨r1, r2⟩ := register_new_spec W h1 g
    have hlr : Later (runs B W H as s).2 s' := by
      refine Later.trans ?_ hl
      simp only [run]
      split
      · exact .refl _
      · exact r2
    have ha := runs_again B W H n hn as s s' hs hs' hle hlr (fun a ha hma => hm (.fresh ha hma))
    have hk : knowns H.var as = true := by
      cases h : knowns H.var as with
      | true => rfl
      | false => exact absurd (.here h) hm
    obtain ⟨vs, hvs⟩ := (runs_known B W H as s).1 hk
    simp only [run, ha, hvs]
    cases B with
    | jax => rfl
    | torch =>
      have e1 := h2.length
      have e2 := h2'.length
      have e3 := hlr.length
      simp only [register_new W h1, register_new W h1', applyOp, hvs]
      rw [hn _ (by omega), hn _ (by omega)]
      simp [default]

theorem runs_again (B : Backend) (W : World α) (H : Hd α) (n : Nat) (hn : ∀ o, n ≤ o → H.op o = none) :
    ∀ (es : List (Exp α)) (s s' : St), Ok W s → Ok W s' → n ≤ s.ops.length → Later (runs B W H es s).2 s' →
      (∀ e ∈ es, ¬ Makes H.var e) → (runs B W H es s').1 = (runs B W H es s).1
  | [], s, s', _, _, _, _, _ => rfl
  | e :: es, s, s', hs, hs', hle, hl, hm => by
    obtain ⟨h1, h2⟩ := run_ok B W H e s hs
    obtain ⟨h3, h4⟩ := runs_ok B W H es _ h1
    obtain ⟨h1', h2'⟩ := run_ok B W H e s' hs'
    have hl : Later (runs B W H es (run B W H e s).2).2 s' := hl
    simp only [runs]
    rw [run_again B W H n hn e s s' hs hs' hle (h4.trans hl) (hm e List.mem_cons_self),
      runs_again B W H n hn es _ _ h1 h1' (Nat.le_trans hle h2.length) (hl.trans h2') (fun a ha => hm a (List.mem_cons_of_mem _ ha))]
end

mutual
theorem run_plain (B : Backend) (W : World α) (H : Hd α) : ∀ (e : Exp α) (s s' : St), Ok W s → Plain e →
    Later (run B W H e s).2 s' → (run B W H e s').2 = s'
  | .val a, s, s', _, _, _ => rfl
  | .var m, s, s', _, _, _ => by
    simp only [run]
    split <;> rfl
  | .lib f as, s, s', hs, hp, hl => by
    obtain ⟨h1, h2⟩ := runs_ok B W H as s hs
    obtain ⟨r1, r2, r3, _⟩ := register_spec W h1 (.lib f) (fun k e => by cases e)
    have hlr : Later (runs B W H as s).2 s' := by
      refine Later.trans ?_ hl
      simp only [run]
      split
      · exact .refl _
      · exact r2
    have ha := runs_plain B W H as s s' hs (fun a ha => by cases hp with | lib hp => exact hp a ha) hlr
    have hk := (runs_known B W H as s).symm.trans (runs_known B W H as s')
    cases B with
    | torch =>
      cases hvs : values (runs .torch W H as s').1 with
      | some vs => simp only [run, hvs, ha]
      | none =>
        have hvs' : values (runs .torch W H as s).1 = none := by
          cases h : values (runs .torch W H as s).1 with
          | none => rfl
          | some vs =>
            obtain ⟨ws, e⟩ := hk.1 ⟨vs, h⟩
            rw [hvs] at e; cases e
        have hc := hl.cache (.lib f) _ (by simp only [run, hvs']; exact r3)
        simp only [run, hvs, ha, register_cached W hc]
    | jax =>
      have hc := hl.cache (.lib f) _ (by simp only [run]; exact r3)
      simp only [run, ha, register_cached W hc]
  | .fresh g as, s, s', _, hp, _ => by cases hp

theorem runs_plain (B : Backend) (W : World α) (H : Hd α) : ∀ (es : List (Exp α)) (s s' : St), Ok W s → (∀ e ∈ es, Plain e) →
    Later (runs B W H es s).2 s' → (runs B W H es s').2 = s'
  | [], s, s', _, _, _ => rfl
  | e :: es, s, s', hs, hp, hl => by
    obtain ⟨h1, h2⟩ := run_ok B W H e s hs
    obtain ⟨h3, h4⟩ := runs_ok B W H es _ h1
    have hl : Later (runs B W H es (run B W H e s).2).2 s' := hl
    simp only [runs]
    rw [run_plain B W H e s s' hs (hp e List.mem_cons_self) (h4.trans hl)]
    exact runs_plain B W H es _ s' h1 (fun a ha => hp a (List.mem_cons_of_mem _ ha)) hl
end

theorem From.later {B : Backend} {W : World α} {s s' : St} (hs : Ok W s) (h : From B W s s') : Ok W s' ∧ Later s s' := by
  induction h with
  | refl => exact ⟨hs, .refl s⟩
  | run H e _ ih =>
    obtain ⟨h1, h2⟩ := run_ok B W H e _ ih.1
    exact ⟨h1, ih.2.trans h2⟩
  | op f _ ih =>
    obtain ⟨h1, h2, _⟩ := register_spec W ih.1 (.lib f) (fun k e => by cases e)
    exact ⟨h1, ih.2.trans h2⟩

theorem unhandled_fits (W : World α) (H : Hd α) (h : Unhandled H) (s₀ : St) : Fits W H W.call s₀ := by
  intro s _ _ o f ho
  rw [h o]
  cases f <;> simp [default, ho]

theorem handles_fits (W : World α) {H : Hd α} {s₀ : St} (h₀ : Ok W s₀) {f : Nat} {h : List α → α} (hH : Handles W s₀ f h H)
    {s₁ : St} (hl : Later (register W s₀ (.lib f)).2 s₁) : Fits W H (instead W f h) s₁ := by
  intro s hs hls o g ho
  obtain ⟨r1, r2, r3, _⟩ := register_spec W h₀ (.lib f) (fun k e => by cases e)
  have hc := (hl.trans hls).cache _ _ r3
  by_cases e : o = (register W s₀ (.lib f)).1
  · rw [e, hH.1]
    rw [e] at ho
    simp only [Option.getD_some]
    rcases hs.cached _ _ hc with ⟨hx, h0⟩ | h'
    · rw [h0, hs.first] at ho
      cases ho
      have hx : W.index f = true := hx
      simp [instead, hx]
    · rw [ho] at h'
      cases h'
      simp [instead]
  · rw [hH.2 o e]
    cases g with
    | made k => simp [default, ho]
    | lib f' =>
      simp only [Option.getD_none, default, ho]
      have hc' := hs.op _ _ ho
      have hne : f' ≠ f := by
        rintro rfl
        rw [hc] at hc'
        exact e (Option.some.inj hc').symm
      have hno : ¬ ((W.index f = true ∨ f = W.getitem) ∧ (W.index f' = true ∨ f' = W.getitem)) := by
        rintro ⟨hf, hf'⟩
        have z : ∀ k, (W.index k = true ∨ k = W.getitem) → ∀ u, s.cache.lookup (.lib k) = some u → u = 0 := by
          intro k hk u hu
          have hg : s.cache.lookup (.lib W.getitem) = some 0 := hs.op 0 _ hs.first
          rcases hk with hk | rfl
          · exact hs.index (.lib k) u hk hu
          · rw [hg] at hu; exact (Option.some.inj hu).symm
        exact e ((z f' hf' _ hc').trans (z f hf _ hc).symm)
      simp [instead, hne, hno]

theorem instead_index (W : World α) (hi : ∀ f, W.index f = true → W.call f = W.call W.getitem) (f : Nat) (h : List α → α) :
    ∀ f', W.index f' = true → instead W f h f' = instead W f h W.getitem := by
  intro f' hf'
  by_cases hf : W.index f = true ∨ f = W.getitem
  · simp [instead, hf, hf']
  · have h1 : f' ≠ f := fun e => hf (.inl (e ▸ hf'))
    have h2 : W.getitem ≠ f := fun e => hf (.inr e.symm)
    simp only [instead, hf, h1, h2, false_and, or_self, if_false, hi f' hf']

/-- Running under handlers `H` and evaluating under `K`. -/
theorem run_eval (B : Backend) (W : World α) (H K : Hd α) (callH callK : Nat → List α → α) {s : St} (hs : Ok W s)
    (hH : Fits W H callH s) (hK : Fits W K callK s) (iH : ∀ f, W.index f = true → callH f = callH W.getitem)
    (iK : ∀ f, W.index f = true → callK f = callK W.getitem) (env : Nat → α) (hv : ∀ n a, H.var n = some a → env n = a)
    (hk : ∀ n, K.var n = some (env n)) (e : Exp α) {s' : St} (hl : From B W (run B W H e s).2 s') :
    eval W K s' (run B W H e s).1 = .val (den (called B W callH callK) W.made H.var env e) := by
  obtain ⟨h1, h2⟩ := run_ok B W H e s hs
  rw [eval_tden W K K rfl s' env hk, tden_later K h1 (hl.later h1).2 env _ (run_below B W H e s hs),
    (run_den B W H K callH callK s hH hK iH iK env hv e s hs (.refl s)).1]

/-! ## Theorems -/

/-- A program without handlers of operations runs, with some variables unknown. When all variables are known, later, evaluating the
term gives what the functions of the library give. -/
theorem C110_value (B : Backend) (W : World α) (hi : ∀ f, W.index f = true → W.call f = W.call W.getitem) (H K : Hd α)
    (hH : Unhandled H) (hK : Unhandled K) (env : Nat → α) (hv : ∀ n a, H.var n = some a → env n = a)
    (hk : ∀ n, K.var n = some (env n)) (e : Exp α) {s s' : St} (hs : From B W (start W) s) (hl : From B W (run B W H e s).2 s') :
    eval W K s' (run B W H e s).1 = .val (den (fun _ => W.call) W.made H.var env e) := by
  rw [run_eval B W H K W.call W.call (hs.later (start_ok W)).1 (unhandled_fits W H hH s) (unhandled_fits W K hK s) hi hi env hv hk e hl]
  congr 2
  funext b f
  cases b <;> cases B <;> rfl

/-- jax: a handler of the operation of `f` stands for `f` wherever it is called, and for no other function, those made on the fly
included; all functions `__getitem__` count as one. -/
theorem C110_handled (W : World α) (hi : ∀ f, W.index f = true → W.call f = W.call W.getitem) (f : Nat) (h : List α → α) (H K : Hd α)
    {s₀ s s' : St} (h₀ : From .jax W (start W) s₀) (hH : Handles W s₀ f h H) (hK : Handles W s₀ f h K) (env : Nat → α)
    (hv : ∀ n a, H.var n = some a → env n = a) (hk : ∀ n, K.var n = some (env n)) (e : Exp α)
    (hs : From .jax W (register W s₀ (.lib f)).2 s) (hl : From .jax W (run .jax W H e s).2 s') :
    eval W K s' (run .jax W H e s).1 = .val (den (fun _ => instead W f h) W.made H.var env e) := by
  have o0 := (h₀.later (start_ok W)).1
  have o1 := hs.later (register_spec W o0 (.lib f) (fun k e => by cases e)).1
  rw [run_eval .jax W H K (instead W f h) (instead W f h) o1.1 (handles_fits W o0 hH o1.2) (handles_fits W o0 hK o1.2)
    (instead_index W hi f h) (instead_index W hi f h) env hv hk e hl]
  congr 2
  funext b f
  cases b <;> rfl

/-- torch: the same where a variable among the arguments is unknown; elsewhere the function itself is called. -/
theorem C110_handled_torch_partial (W : World α) (hi : ∀ f, W.index f = true → W.call f = W.call W.getitem) (f : Nat)
    (h : List α → α) (H K : Hd α) {s₀ s s' : St} (h₀ : From .torch W (start W) s₀) (hH : Handles W s₀ f h H)
    (hK : Handles W s₀ f h K) (env : Nat → α) (hv : ∀ n a, H.var n = some a → env n = a) (hk : ∀ n, K.var n = some (env n))
    (e : Exp α) (hs : From .torch W (register W s₀ (.lib f)).2 s) (hl : From .torch W (run .torch W H e s).2 s') :
    eval W K s' (run .torch W H e s).1 =
      .val (den (fun b => if b then W.call else instead W f h) W.made H.var env e) := by
  have o0 := (h₀.later (start_ok W)).1
  have o1 := hs.later (register_spec W o0 (.lib f) (fun k e => by cases e)).1
  rw [run_eval .torch W H K (instead W f h) (instead W f h) o1.1 (handles_fits W o0 hH o1.2) (handles_fits W o0 hK o1.2)
    (instead_index W hi f h) (instead_index W hi f h) env hv hk e hl]
  congr 2
  funext b f
  cases b <;> rfl

/-- A handler that is there only when the term is evaluated stands for `f` where a variable among the arguments was unknown. -/
theorem C110_later (B : Backend) (W : World α) (hi : ∀ f, W.index f = true → W.call f = W.call W.getitem) (f : Nat) (h : List α → α)
    (H K : Hd α) {s₀ s s' : St} (h₀ : From B W (start W) s₀) (hH : Unhandled H) (hK : Handles W s₀ f h K) (env : Nat → α)
    (hv : ∀ n a, H.var n = some a → env n = a) (hk : ∀ n, K.var n = some (env n)) (e : Exp α)
    (hs : From B W (register W s₀ (.lib f)).2 s) (hl : From B W (run B W H e s).2 s') :
    eval W K s' (run B W H e s).1 = .val (den (fun b => if b then W.call else instead W f h) W.made H.var env e) := by
  have o0 := (h₀.later (start_ok W)).1
  have o1 := hs.later (register_spec W o0 (.lib f) (fun k e => by cases e)).1
  rw [run_eval B W H K W.call (instead W f h) o1.1 (unhandled_fits W H hH s) (handles_fits W o0 hK o1.2) hi
    (instead_index W hi f h) env hv hk e hl]
  congr 2
  funext b f
  cases b <;> cases B <;> rfl

/-- The operation of a function of the library stays the same, and looking it up again changes nothing. -/
theorem C110_stable (B : Backend) (W : World α) (f : Nat) {s s' : St} (hs : From B W (start W) s)
    (hl : From B W (register W s (.lib f)).2 s') : register W s' (.lib f) = ((register W s (.lib f)).1, s') := by
  obtain ⟨r1, _, r3, _⟩ := register_spec W (hs.later (start_ok W)).1 (.lib f) (fun k e => by cases e)
  exact register_cached W ((hl.later r1).2.cache _ _ r3)

/-- Two functions of the library have the same operation when they are the same, or both `__getitem__`, and only then. -/
theorem C110_distinct (B : Backend) (W : World α) (f f' : Nat) {s s' : St} (hs : From B W (start W) s)
    (hl : From B W (register W s (.lib f)).2 s') :
    (register W s (.lib f)).1 = (register W s' (.lib f')).1 ↔
      f = f' ∨ (W.index f = true ∨ f = W.getitem) ∧ (W.index f' = true ∨ f' = W.getitem) := by
  obtain ⟨r1, _, r3, _⟩ := register_spec W (hs.later (start_ok W)).1 (.lib f) (fun k e => by cases e)
  have o1 := hl.later r1
  obtain ⟨q1, q2, q3, _⟩ := register_spec W o1.1 (.lib f') (fun k e => by cases e)
  have r4 := (o1.2.trans q2).cache _ _ r3
  have hg : (register W s' (.lib f')).2.cache.lookup (.lib W.getitem) = some 0 := q1.op 0 _ q1.first
  have z : ∀ k, (W.index k = true ∨ k = W.getitem) → ∀ u, (register W s' (.lib f')).2.cache.lookup (.lib k) = some u → u = 0 := by
    intro k hk u hu
    rcases hk with hk | rfl
    · exact q1.index (.lib k) u hk hu
    · rw [hg] at hu; exact (Option.some.inj hu).symm
  constructor
  · intro e
    rw [e] at r4
    rcases q1.cached _ _ r4 with ⟨hx, h0⟩ | h1
    · refine .inr ⟨.inl hx, ?_⟩
      rcases q1.cached _ _ q3 with ⟨hy, _⟩ | h2
      · exact .inl hy
      · rw [h0, q1.first] at h2
        cases h2; exact .inr rfl
    · rcases q1.cached _ _ q3 with ⟨hy, h0⟩ | h2
      · rw [h0, q1.first] at h1
        cases h1
        exact .inr ⟨.inr rfl, .inl hy⟩
      · rw [h1] at h2
        cases h2; exact .inl rfl
  · rintro (rfl | ⟨hf, hf'⟩)
    · rw [r4] at q3; exact Option.some.inj q3
    · exact (z f hf _ r4).trans (z f' hf' _ q3).symm

/-- The same expression gives the same term again, with the same operations, unless in it a function that is made on the fly gets a
variable that is unknown. Operations that are handled exist. -/
theorem C110_same (B : Backend) (W : World α) (H : Hd α) (e : Exp α) {s s' : St} (hs : From B W (start W) s)
    (hH : ∀ o, s.ops.length ≤ o → H.op o = none) (hl : From B W (run B W H e s).2 s') :
    (run B W H e s').1 = (run B W H e s).1 ↔ ¬ Makes H.var e := by
  have o0 := (hs.later (start_ok W)).1
  have o1 := hl.later (run_ok B W H e s o0).1
  constructor
  · intro h hm
    exact run_makes B W H e s' o1.1 hm (h ▸ below_mono o1.2.length _ (run_below B W H e s o0))
  · exact run_again B W H _ hH e s s' o0 o1.1 (Nat.le_refl _) o1.2

/-- An expression with functions of the library only makes no operation when it runs again. -/
theorem C110_bounded (B : Backend) (W : World α) (H : Hd α) (e : Exp α) (he : Plain e) {s s' : St} (hs : From B W (start W) s)
    (hl : From B W (run B W H e s).2 s') : (run B W H e s').2 = s' := by
  have o0 := (hs.later (start_ok W)).1
  exact run_plain B W H e s s' o0 he (hl.later (run_ok B W H e s o0).1).2

/-- An expression in which a function made on the fly gets a variable that is unknown makes operations with each run. None is freed. -/
theorem C110_memory_fails (B : Backend) (W : World α) (H : Hd α) (e : Exp α) (he : Makes H.var e) {s : St}
    (hs : From B W (start W) s) (n : Nat) : s.ops.length + n ≤ (times B W H e n s).ops.length := by
  have o0 := (hs.later (start_ok W)).1
  clear hs
  induction n generalizing s with
  | zero => exact Nat.le_refl _
  | succ n ih =>
    obtain ⟨h1, h2⟩ := run_ok B W H e s o0
    have hlt : s.ops.length < (run B W H e s).2.ops.length := by
      rcases Nat.lt_or_ge s.ops.length (run B W H e s).2.ops.length with h | h
      · exact h
      · exact absurd (below_mono h _ (run_below B W H e s o0)) (run_makes B W H e s o0 he)
    have := ih h1
    simp only [times]
    omega

mutual
theorem run_grows (W : World α) (H : Hd α) : ∀ (e : Exp α) (s : St), Ok W s → ¬ Plain e →
    s.ops.length < (run .torch W H e s).2.ops.length
  | .val a, s, _, he => absurd (.val a) he
  | .var n, s, _, he => absurd (.var n) he
  | .lib f as, s, hs, he => by
    have ha : ¬ ∀ a ∈ as, Plain a := fun h => he (.lib h)
    have hg := runs_grows W H as s hs ha
    have h1 := (runs_ok .torch W H as s hs).1
    simp only [run]
    split
    · exact hg
    · exact Nat.lt_of_lt_of_le hg (register_spec W h1 (.lib f) (fun k e => by cases e)).2.1.length
  | .fresh g as, s, hs, _ => by
    obtain ⟨h1, h2⟩ := runs_ok .torch W H as s hs
    have := h2.length
    simp only [run, register_new W h1]
    simp
    omega

theorem runs_grows (W : World α) (H : Hd α) : ∀ (es : List (Exp α)) (s : St), Ok W s → (¬ ∀ e ∈ es, Plain e) →
    s.ops.length < (runs .torch W H es s).2.ops.length
  | [], s, _, he => by simp at he
  | e :: es, s, hs, he => by
    obtain ⟨h1, h2⟩ := run_ok .torch W H e s hs
    have h3 := (runs_ok .torch W H es _ h1).2.length
    simp only [runs]
    by_cases hp : Plain e
    · exact Nat.lt_of_le_of_lt h2.length (runs_grows W H es _ h1 (fun h => he fun a ha => by
        rcases List.mem_cons.1 ha with rfl | ha
        · exact hp
        · exact h a ha))
    · exact Nat.lt_of_lt_of_le (run_grows W H e s hs hp) h3
end

/-- torch: an expression with a function made on the fly makes operations with each run, whether variables are known or not. -/
theorem C110_memory_torch_fails (W : World α) (H : Hd α) (e : Exp α) (he : ¬ Plain e) {s : St} (hs : From .torch W (start W) s)
    (n : Nat) : s.ops.length + n ≤ (times .torch W H e n s).ops.length := by
  have o0 := (hs.later (start_ok W)).1
  clear hs
  induction n generalizing s with
  | zero => exact Nat.le_refl _
  | succ n ih =>
    have hlt := run_grows W H e s o0 he
    have := ih (run_ok .torch W H e s o0).1
    simp only [times]
    omega

/-! ## Examples -/

/-- Numbers: function 0 is `add`, 1 and 2 are `__getitem__` of arrays, 3 is that of `jax_getitem`; functions made on the fly add 100. -/
def numbers : World Nat where
  call f vs := match f with
    | 0 => vs.sum
    | _ => vs.headD 0
  made _ vs := 100 + vs.sum
  index f := f == 1 || f == 2
  getitem := 3

/-- Variable 0 is unknown. -/
def some0 (op : Nat → Option (List Nat → Nat)) : Hd Nat := ⟨op, fun n => if n = 0 then none else some n⟩

/-- `add(add(1, 2), x)`. -/
def sum : Exp Nat := .lib 0 [.lib 0 [.val 1, .val 2], .var 0]

/-- `x.at[0].set(1)`. -/
def update : Exp Nat := .fresh 0 [.var 0, .val 0, .val 1]

/-- `add` is the second operation; under a handler that multiplies. -/
def times1 : Hd Nat := some0 (fun o => if o = 1 then some (fun vs => vs.foldl (· * ·) 1) else none)

/-- Terms with functions made on the fly are not the same when they are built twice. -/
theorem C110_update_fails : ∃ (W : World Nat) (H : Hd Nat) (e : Exp Nat), Unhandled H ∧
    (run .jax W H e (run .jax W H e (start W)).2).1 ≠ (run .jax W H e (start W)).1 :=
  ⟨numbers, some0 fun _ => none, update, fun _ => rfl, by
    intro h
    have := (C110_same .jax numbers (some0 fun _ => none) update .refl (fun _ _ => rfl) .refl).1 h
    exact this (.here rfl)⟩

/-- With torch, a handler of an operation does not see calls with values only. -/
theorem C110_torch_fails : ∃ (W : World Nat) (f : Nat) (h : List Nat → Nat) (H : Hd Nat) (e : Exp Nat),
    Handles W (start W) f h H ∧ (∃ a, (run .torch W H e (register W (start W) (.lib f)).2).1 = .val a ∧
      a ≠ den (fun _ => instead W f h) W.made H.var (fun _ => 0) e) := by
  refine ⟨numbers, 0, fun vs => vs.foldl (· * ·) 1, times1, .lib 0 [.val 1, .val 2], ⟨rfl, fun o ho => ?_⟩, 3, rfl, by decide +kernel⟩
  have : o ≠ 1 := ho
  simp [times1, some0, this]

-- The assumptions hold of the numbers, and the theorems say something about them.
example : ∀ f, numbers.index f = true → numbers.call f = numbers.call numbers.getitem := by
  intro f h
  simp [numbers] at h
  rcases h with rfl | rfl <;> rfl

example : Handles numbers (start numbers) 0 (fun vs => vs.foldl (· * ·) 1) times1 :=
  ⟨rfl, fun o ho => by have : o ≠ 1 := ho; simp [times1, some0, this]⟩

example : den (fun _ => numbers.call) numbers.made (some0 fun _ => none).var (fun _ => 7) sum = 10 := by decide +kernel
example : den (fun _ => instead numbers 0 fun vs => vs.foldl (· * ·) 1) numbers.made times1.var (fun _ => 7) sum = 14 := by decide +kernel
example : den (fun b => if b then numbers.call else instead numbers 0 fun vs => vs.foldl (· * ·) 1) numbers.made times1.var
    (fun _ => 7) sum = 21 := by decide +kernel
example : Plain sum := .lib (by
  intro a ha
  simp at ha
  rcases ha with rfl | rfl
  · exact .lib (by intro a ha; simp at ha; rcases ha with rfl | rfl <;> exact .val _)
  · exact .var _)
example : ¬ Plain (.fresh 0 [.val 1] : Exp Nat) := fun h => by cases h
example : Makes (some0 fun _ => none).var update := .here rfl
example : ¬ Makes (some0 fun _ => none).var sum := by
  intro h
  cases h with
  | lib ha h =>
    simp at ha
    rcases ha with rfl | rfl
    · cases h with
      | lib ha h =>
        simp at ha
        rcases ha with rfl | rfl <;> cases h
    · cases h

end Verif.Indexed.Registry
