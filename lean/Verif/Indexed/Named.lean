import Mathlib.Data.List.Nodup

/-!
# C37: named dimensions of tensors

Model of `handlers/torch.py`: `sizesof` 37-80, `_partial_eval` 83-130, `_bind_dims_tensor` 163-202,
`_unbind_dims_tensor` 220-225, the `torch_getitem` case of `_register_torch_op` 228-262, `_embed_tensor` 321-334
and `_EagerTensorTerm` (`__new__` and `shape`).

A tensor with named dimensions is an array and an index with one entry for each dimension of the array: a name
(the term `n()`) or a full slice. The keys considered are sequences of names and full slices; `None`, `...` and
missing trailing entries are the subject of C36. `torch.func.vmap` of the evaluation of a term, in
`_partial_eval`, is taken to give for each choice of the named indices the value of the term with these indices.
-/

namespace Verif.Indexed.Named

/-- An operation naming a dimension. -/
abbrev Name := String

/-- A tensor without named dimensions. -/
structure Arr (α : Type) where
  shape : List Nat
  get : List Nat → α

/-- `_EagerTensorTerm` (`args`), or a plain tensor if no entry of `dims` is a name. -/
structure Val (α : Type) where
  arr : Arr α
  dims : List (Option Name)

/-- What can go wrong. `notHandled`: the operation stays a term. -/
inductive Err where
  | value
  | index
  | runtime
  | notHandled
deriving DecidableEq

variable {α : Type}

def plain (x : Arr α) : Val α := ⟨x, List.replicate x.shape.length none⟩

/-- Sizes of the dimensions not named: `[s for s, k in zip(x.shape, key) if not isinstance(k, Term)]`. -/
def visible : List Nat → List (Option Name) → List Nat
  | d :: sh, none :: ds => d :: visible sh ds
  | _ :: sh, some _ :: ds => visible sh ds
  | _, _ => []

/-- `_EagerTensorTerm.shape`. -/
def Val.shape (v : Val α) : List Nat := visible v.arr.shape v.dims

/-- The loop of `_torch_getitem_sizeof` (59-72) over the entries of a key with the sizes of their dimensions;
`none` for ValueError. -/
def sizesLoop : List (Name × Nat) → List (Nat × Option Name) → Option (List (Name × Nat))
  | sz, [] => some sz
  | sz, (_, none) :: r => sizesLoop sz r
  | sz, (d, some n) :: r =>
    match sz.lookup n with
    | none => sizesLoop (sz ++ [(n, d)]) r
    | some e => if e = d then sizesLoop sz r else none

/-- `sizesof(value)`. -/
def Val.sizes (v : Val α) : Option (List (Name × Nat)) := sizesLoop [] (v.arr.shape.zip v.dims)

/-- The index into the array for given values of the names and a given index into the other dimensions. -/
def coords : List (Option Name) → (Name → Nat) → List Nat → List Nat
  | [], _, _ => []
  | none :: ds, env, ix => ix.headD 0 :: coords ds env ix.tail
  | some n :: ds, env, ix => env n :: coords ds env ix

/-- The entry of a tensor for given values of the names. -/
def den (v : Val α) (env : Name → Nat) (ix : List Nat) : α := v.arr.get (coords v.dims env ix)

/-- Values of names, changed for some names. -/
def upd (env : Name → Nat) (names : List Name) (js : List Nat) (n : Name) : Nat :=
  if n ∈ names then js.getD (names.idxOf n) 0 else env n

/-- The index `x[ds][key]` as one index. -/
def compose : List (Option Name) → List (Option Name) → List (Option Name)
  | some n :: ds, key => some n :: compose ds key
  | none :: ds, k :: key => k :: compose ds key
  | _, _ => []

/-- `_partial_eval(tm)` (83-130), for the sizes `s` of the names of `tm`: a tensor with these names first. -/
def partialEval (s : List (Name × Nat)) (tm : Val α) : Val α where
  arr :=
    { shape := s.map Prod.snd ++ tm.shape
      get := fun ix => den tm (upd (fun _ => 0) (s.map Prod.fst) (ix.take s.length)) (ix.drop s.length) }
  dims := s.map (fun p => some p.1) ++ List.replicate tm.shape.length none

/-- A key with the missing entries (C36). -/
def pad (n : Nat) (key : List (Option Name)) : List (Option Name) :=
  key ++ List.replicate (n - key.length) none

/-- `torch_getitem(v, key)` (233-258): if all entries of the key of a plain tensor are names, the result is a
term; if there are named dimensions otherwise, it is evaluated for all their values; else it is an index with
full slices, and the tensor itself. -/
def getitem (v : Val α) (key : List (Option Name)) : Except Err (Val α) :=
  if v.shape.length < key.length then .error .index
  else
    let tm : Val α := ⟨v.arr, compose v.dims (pad v.shape.length key)⟩
    match v.sizes with
    | none => .error .value
    | some s0 =>
      match sizesLoop s0 (v.shape.zip (pad v.shape.length key)) with
      | none => .error .value
      | some s =>
        if v.dims.all Option.isNone && !key.isEmpty && key.all Option.isSome then .ok tm
        else if s.isEmpty then .ok tm
        else .ok (partialEval s tm)

/-- `tensor.permute(perm)`; `none` if this is not a permutation of the dimensions. -/
def permute (x : Arr α) (perm : List Nat) : Option (Arr α) :=
  if perm.length = x.shape.length ∧ perm.Nodup ∧ ∀ i ∈ perm, i < x.shape.length then
    some
      { shape := perm.map (x.shape.getD · 0)
        get := fun ix => x.get ((List.range x.shape.length).map (fun j => ix.getD (perm.idxOf j) 0)) }
  else none

/-- Entries of a key other than the given names (194-198). -/
def keep (names : List Name) : Option Name → Bool
  | none => true
  | some n => !names.contains n

/-- `bind_dims(v, *names)` (163-202). -/
def bind (v : Val α) (names : List Name) : Except Err (Val α) :=
  if ¬ names.Nodup then .error .value
  else
    match v.sizes with
    | none => .error .value
    | some s =>
      if names.all (fun n => !(s.map Prod.fst).contains n) then .ok v
      else if v.dims.all Option.isNone then .error .notHandled
      else if ¬ names.all (fun n => v.dims.contains (some n)) then .error .notHandled
      else
        let reindex := (List.range v.dims.length).filter (fun i => keep names (v.dims.getD i none))
        let perm := names.map (fun n => v.dims.idxOf (some n)) ++ reindex
        match permute v.arr perm with
        | none => .error .runtime
        | some t => getitem (plain t) (List.replicate names.length none ++ reindex.map (v.dims.getD · none))

/-- `unbind_dims(v, *names)` (225). -/
def unbind (v : Val α) (names : List Name) : Except Err (Val α) := getitem v (names.map some)

/-! ## Specification -/

/-- A dimension of size `d` has the name `n`. -/
def Occurs (v : Val α) (n : Name) (d : Nat) : Prop := (d, some n) ∈ v.arr.shape.zip v.dims

/-- The index has an entry for each dimension, and a name stands for dimensions of one size only. -/
structure Val.Wf (v : Val α) : Prop where
  rank : v.dims.length = v.arr.shape.length
  sizes : ∀ n d e, Occurs v n d → Occurs v n e → d = e

/-- Tensors with the same named dimensions, the same shape and the same entries. -/
structure Same (v w : Val α) : Prop where
  shape : v.shape = w.shape
  named : ∀ n d, Occurs v n d ↔ Occurs w n d
  den : ∀ env ix, ix.length = v.shape.length → den v env ix = den w env ix

/-! ## Sizes -/

theorem lookup_some {s : List (Name × Nat)} (h : (s.map Prod.fst).Nodup) (n : Name) (d : Nat) :
    s.lookup n = some d ↔ (n, d) ∈ s := by
  induction s with
  | nil => simp
  | cons p s ih =>
    obtain ⟨m, e⟩ := p
    simp only [List.map_cons, List.nodup_cons, List.mem_map, not_exists, not_and] at h
    rw [List.lookup_cons]
    by_cases hn : n = m
    · subst hn
      simp only [BEq.rfl]
      constructor
      · intro h1; cases h1; simp
      · intro h1
        rcases List.mem_cons.1 h1 with h1 | h1
        · cases h1; rfl
        · exact absurd rfl (h.1 _ h1)
    · have : (n == m) = false := by simpa using hn
      rw [this]
      simp [ih h.2, hn]

theorem lookup_none {s : List (Name × Nat)} (h : (s.map Prod.fst).Nodup) (n : Name) :
    s.lookup n = none ↔ ∀ d, (n, d) ∉ s := by
  constructor
  · intro h1 d hd
    rw [(lookup_some h n d).2 hd] at h1
    cases h1
  · intro h1
    cases hl : s.lookup n with
    | none => rfl
    | some d => exact absurd ((lookup_some h n d).1 hl) (h1 d)

/-- `sizesof` gives the sizes of the names, if each name has one. -/
theorem sizesLoop_spec : ∀ (zs : List (Nat × Option Name)) (s : List (Name × Nat)), (s.map Prod.fst).Nodup →
    (∀ n d e, ((n, d) ∈ s ∨ (d, some n) ∈ zs) → ((n, e) ∈ s ∨ (e, some n) ∈ zs) → d = e) →
    ∃ s', sizesLoop s zs = some s' ∧ (s'.map Prod.fst).Nodup ∧
      ∀ n d, (n, d) ∈ s' ↔ ((n, d) ∈ s ∨ (d, some n) ∈ zs) := by
  intro zs
  induction zs with
  | nil => intro s h _; exact ⟨s, rfl, h, fun n d => by simp⟩
  | cons z zs ih =>
    intro s h hf
    obtain ⟨d, n⟩ := z
    cases n with
    | none =>
      obtain ⟨s', h1, h2, h3⟩ := ih s h (fun n d e hd he => hf n d e (by simpa using hd) (by simpa using he))
      exact ⟨s', h1, h2, fun n d => by simp [h3]⟩
    | some n =>
      simp only [sizesLoop]
      cases hl : s.lookup n with
      | none =>
        have hn := (lookup_none h n).1 hl
        obtain ⟨s', h1, h2, h3⟩ := ih (s ++ [(n, d)])
          (by
            rw [List.map_append, List.nodup_append]
            refine ⟨h, by simp, ?_⟩
            intro a ha b hb hab
            simp only [List.map_cons, List.map_nil, List.mem_singleton] at hb
            subst hb
            subst hab
            obtain ⟨p, hp, he⟩ := List.mem_map.1 ha
            subst he
            exact hn p.2 hp)
          (by
            intro m d' e' hd he
            apply hf m d' e'
            · simp only [List.mem_append, Prod.mk.injEq, List.mem_cons, Option.some.injEq] at hd ⊢
              tauto
            · simp only [List.mem_append, Prod.mk.injEq, List.mem_cons, Option.some.injEq] at he ⊢
              tauto)
        refine ⟨s', h1, h2, ?_⟩
        intro m d'
        rw [h3]
        simp only [List.mem_append, Prod.mk.injEq, List.mem_cons, Option.some.injEq]
        tauto
      | some e =>
        have he := (lookup_some h n e).1 hl
        have hed : e = d := hf n e d (Or.inl he) (Or.inr (by simp))
        subst hed
        obtain ⟨s', h1, h2, h3⟩ := ih s h (by
          intro m d' e' hd' he'
          exact hf m d' e' (hd'.imp id (fun x => List.mem_cons_of_mem _ x))
            (he'.imp id (fun x => List.mem_cons_of_mem _ x)))
        simp only [if_true]
        refine ⟨s', h1, h2, ?_⟩
        intro m d'
        rw [h3]
        simp only [List.mem_cons, Prod.mk.injEq, Option.some.injEq]
        constructor
        · tauto
        · rintro (h' | ⟨rfl, rfl⟩ | h')
          · exact Or.inl h'
          · exact Or.inl he
          · exact Or.inr h'

/-- `sizesof` raises if a name stands for dimensions of different sizes. -/
theorem sizesLoop_functional : ∀ (zs : List (Nat × Option Name)) (s s' : List (Name × Nat)),
    (s.map Prod.fst).Nodup → sizesLoop s zs = some s' →
    (∀ n d e, ((n, d) ∈ s ∨ (d, some n) ∈ zs) → ((n, e) ∈ s ∨ (e, some n) ∈ zs) → d = e) := by
  intro zs
  induction zs with
  | nil =>
    intro s s' h _ n d e hd he
    simp only [List.not_mem_nil, or_false] at hd he
    have := (lookup_some h n d).2 hd
    rw [(lookup_some h n e).2 he] at this
    exact (Option.some.inj this).symm
  | cons z zs ih =>
    intro s s' h hs
    obtain ⟨d, n⟩ := z
    cases n with
    | none =>
      have := ih s s' h hs
      intro n d' e' hd he
      exact this n d' e' (by simpa using hd) (by simpa using he)
    | some n =>
      simp only [sizesLoop] at hs
      cases hl : s.lookup n with
      | none =>
        rw [hl] at hs
        have hn := (lookup_none h n).1 hl
        have := ih (s ++ [(n, d)]) s'
          (by
            rw [List.map_append, List.nodup_append]
            refine ⟨h, by simp, ?_⟩
            intro a ha b hb hab
            simp only [List.map_cons, List.map_nil, List.mem_singleton] at hb
            subst hb
            subst hab
            obtain ⟨p, hp, he⟩ := List.mem_map.1 ha
            subst he
            exact hn p.2 hp) hs
        intro m d' e' hd he
        apply this m d' e'
        · simp only [List.mem_append, Prod.mk.injEq, List.mem_cons, Option.some.injEq] at hd ⊢
          tauto
        · simp only [List.mem_append, Prod.mk.injEq, List.mem_cons, Option.some.injEq] at he ⊢
          tauto
      | some e =>
        rw [hl] at hs
        simp only at hs
        split at hs
        · next hed =>
          subst hed
          have he := (lookup_some h n e).1 hl
          have := ih s s' h hs
          intro m d' e' hd' he'
          simp only [List.mem_cons, Prod.mk.injEq, Option.some.injEq] at hd' he'
          apply this m d' e'
          · rcases hd' with h' | ⟨rfl, rfl⟩ | h'
            · exact Or.inl h'
            · exact Or.inl he
            · exact Or.inr h'
          · rcases he' with h' | ⟨rfl, rfl⟩ | h'
            · exact Or.inl h'
            · exact Or.inl he
            · exact Or.inr h'
        · cases hs

theorem Val.Wf.sizesOf {v : Val α} (h : v.Wf) : ∃ s, v.sizes = some s ∧ (s.map Prod.fst).Nodup ∧
    ∀ n d, (n, d) ∈ s ↔ Occurs v n d := by
  obtain ⟨s, h1, h2, h3⟩ := sizesLoop_spec (v.arr.shape.zip v.dims) [] (by simp)
    (fun n d e hd he => h.sizes n d e (by simpa [Occurs] using hd) (by simpa [Occurs] using he))
  exact ⟨s, h1, h2, fun n d => by rw [h3]; simp [Occurs]⟩

/-! ## Indexing -/

/-- The number of unnamed dimensions. -/
theorem visible_length : ∀ (ds : List (Option Name)) (sh : List Nat), ds.length = sh.length →
    (visible sh ds).length = ds.countP Option.isNone := by
  intro ds
  induction ds with
  | nil => intro sh _; cases sh <;> rfl
  | cons k ds ih =>
    intro sh h
    cases sh with
    | nil => simp at h
    | cons d sh =>
      have := ih sh (by simpa using h)
      cases k with
      | none => simp [visible, this]
      | some n => simp [visible, this]

theorem visible_compose : ∀ (ds key : List (Option Name)) (sh : List Nat), ds.length = sh.length →
    key.length = (visible sh ds).length → visible sh (compose ds key) = visible (visible sh ds) key := by
  intro ds
  induction ds with
  | nil =>
    intro key sh h hk
    cases sh with
    | nil => cases key <;> simp [visible]
    | cons d sh => simp at h
  | cons k ds ih =>
    intro key sh h hk
    cases sh with
    | nil => simp at h
    | cons d sh =>
      cases k with
      | some n =>
        simp only [compose, visible] at hk ⊢
        exact ih key sh (by simpa using h) hk
      | none =>
        cases key with
        | nil => simp [visible] at hk
        | cons k key =>
          have hk' : key.length = (visible sh ds).length := by simpa [visible] using hk
          have := ih key sh (by simpa using h) hk'
          cases k with
          | none => simp only [compose, visible, this]
          | some m => simp only [compose, visible, this]

theorem compose_length : ∀ (ds key : List (Option Name)), key.length = ds.countP Option.isNone →
    (compose ds key).length = ds.length := by
  intro ds
  induction ds with
  | nil => intro key _; rfl
  | cons k ds ih =>
    intro key h
    cases k with
    | some n => simp [compose, ih key (by simpa using h)]
    | none =>
      cases key with
      | nil => simp at h
      | cons k key => simp [compose, ih key (by simpa using h)]

theorem coords_compose : ∀ (ds key : List (Option Name)) (env : Name → Nat) (ix : List Nat),
    key.length = ds.countP Option.isNone → coords (compose ds key) env ix = coords ds env (coords key env ix) := by
  intro ds
  induction ds with
  | nil => intro key env ix _; rfl
  | cons k ds ih =>
    intro key env ix h
    cases k with
    | some n => simp [compose, coords, ih key env ix (by simpa using h)]
    | none =>
      cases key with
      | nil => simp at h
      | cons k key =>
        have h' : key.length = ds.countP Option.isNone := by simpa using h
        cases k with
        | none => simp [compose, coords, ih key env ix.tail h']
        | some m => simp [compose, coords, ih key env ix h']

theorem mem_compose (n : Name) (d : Nat) : ∀ (ds key : List (Option Name)) (sh : List Nat), ds.length = sh.length →
    key.length = (visible sh ds).length →
    ((d, some n) ∈ sh.zip (compose ds key) ↔ (d, some n) ∈ sh.zip ds ∨ (d, some n) ∈ (visible sh ds).zip key) := by
  intro ds
  induction ds with
  | nil => intro key sh h _; cases sh <;> simp [compose, visible] at h ⊢
  | cons k ds ih =>
    intro key sh h hk
    cases sh with
    | nil => simp at h
    | cons e sh =>
      cases k with
      | some m =>
        simp only [compose, visible, List.zip_cons_cons, List.mem_cons] at hk ⊢
        rw [ih key sh (by simpa using h) hk]
        tauto
      | none =>
        cases key with
        | nil => simp [visible] at hk
        | cons k key =>
          have hk' : key.length = (visible sh ds).length := by simpa [visible] using hk
          simp only [compose, visible, List.zip_cons_cons, List.mem_cons]
          rw [ih key sh (by simpa using h) hk']
          simp only [Prod.mk.injEq, reduceCtorEq, and_false, false_or]
          tauto

theorem coords_congr : ∀ (ds : List (Option Name)) (env env' : Name → Nat) (ix : List Nat),
    (∀ n, some n ∈ ds → env n = env' n) → coords ds env ix = coords ds env' ix := by
  intro ds
  induction ds with
  | nil => intro _ _ _ _; rfl
  | cons k ds ih =>
    intro env env' ix h
    cases k with
    | none => simp only [coords]; rw [ih env env' ix.tail (fun n hn => h n (List.mem_cons_of_mem _ hn))]
    | some n =>
      simp only [coords]
      rw [ih env env' ix (fun n hn => h n (List.mem_cons_of_mem _ hn)), h n (by simp)]

theorem coords_length : ∀ (ds : List (Option Name)) (env : Name → Nat) (ix : List Nat),
    (coords ds env ix).length = ds.length := by
  intro ds
  induction ds with
  | nil => intro _ _; rfl
  | cons k ds ih => intro env ix; cases k <;> simp [coords, ih]

theorem coords_names (env : Name → Nat) : ∀ (ns : List Name) (ds : List (Option Name)) (ix : List Nat),
    coords (ns.map some ++ ds) env ix = ns.map env ++ coords ds env ix := by
  intro ns
  induction ns with
  | nil => intro _ _; rfl
  | cons n ns ih => intro ds ix; simp [coords, ih]

theorem coords_none (env : Name → Nat) : ∀ (k : Nat) (ds : List (Option Name)) (js ix : List Nat), js.length = k →
    coords (List.replicate k none ++ ds) env (js ++ ix) = js ++ coords ds env ix := by
  intro k
  induction k with
  | zero => intro ds js ix h; rw [List.length_eq_zero_iff.1 h]; rfl
  | succ k ih =>
    intro ds js ix h
    cases js with
    | nil => simp at h
    | cons j js => simp [List.replicate_succ, coords, ih ds js ix (by simpa using h)]

/-- Full slices for all dimensions. -/
theorem den_trailing (env : Name → Nat) : ∀ (ds : List (Option Name)) (k : Nat) (ix ix' : List Nat),
    k = ds.countP Option.isNone → ix' = coords (List.replicate k none) env ix →
    coords ds env ix' = coords ds env ix := by
  intro ds
  induction ds with
  | nil => intro _ _ _ _ _; rfl
  | cons x ds ih =>
    intro k ix ix' hk he
    cases x with
    | some n => simp only [coords]; rw [ih k ix ix' (by simpa using hk) he]
    | none =>
      cases k with
      | zero => simp at hk
      | succ k =>
        simp only [List.replicate_succ, coords] at he
        subst he
        simp only [coords, List.headD_cons, List.tail_cons]
        rw [ih k ix.tail _ (by simpa using hk) rfl]

theorem visible_names (ss rest : List Nat) : ∀ (ns : List Name), ns.length = ss.length → ∀ ds,
    visible (ss ++ rest) (ns.map some ++ ds) = visible rest ds := by
  induction ss with
  | nil => intro ns h ds; rw [List.length_eq_zero_iff.1 h]; rfl
  | cons d ss ih =>
    intro ns h ds
    cases ns with
    | nil => simp at h
    | cons n ns => simp [visible, ih ns (by simpa using h) ds]

theorem visible_none (rest : List Nat) (ds : List (Option Name)) : ∀ (ss : List Nat),
    visible (ss ++ rest) (List.replicate ss.length none ++ ds) = ss ++ visible rest ds := by
  intro ss
  induction ss with
  | nil => rfl
  | cons d ss ih => simp [List.replicate_succ, visible, ih]

theorem visible_all (ss : List Nat) : visible ss (List.replicate ss.length none) = ss := by
  have := visible_none [] [] ss
  simpa [visible] using this

theorem pad_length {n : Nat} {key : List (Option Name)} (h : key.length ≤ n) : (pad n key).length = n := by
  simp [pad]; omega

theorem mem_zip_pad (n : Name) (d m : Nat) : ∀ (key : List (Option Name)) (sh : List Nat),
    (d, some n) ∈ sh.zip (key ++ List.replicate m none) ↔ (d, some n) ∈ sh.zip key := by
  intro key
  induction key with
  | nil =>
    intro sh
    simp only [List.nil_append, List.zip_nil_right, List.not_mem_nil, iff_false]
    intro h
    have := (List.of_mem_zip h).2
    rw [List.mem_replicate] at this
    cases this.2
  | cons k key ih =>
    intro sh
    cases sh with
    | nil => simp
    | cons e sh => simp [ih]

theorem partialEval_wf {s : List (Name × Nat)} (tm : Val α) (hn : (s.map Prod.fst).Nodup) :
    (partialEval s tm).Wf ∧ (partialEval s tm).shape = tm.shape ∧
      ∀ n d, Occurs (partialEval s tm) n d ↔ (n, d) ∈ s := by
  have hocc : ∀ n d, Occurs (partialEval s tm) n d ↔ (n, d) ∈ s := by
    intro n d
    unfold Occurs partialEval
    simp only
    rw [mem_zip_pad]
    have : ∀ (s : List (Name × Nat)) (r : List Nat),
        (d, some n) ∈ (s.map Prod.snd ++ r).zip (s.map (fun p => some p.1)) ↔ (n, d) ∈ s := by
      intro s r
      induction s with
      | nil => simp
      | cons p s ih =>
        obtain ⟨m, e⟩ := p
        simp [ih]
        tauto
    exact this s _
  refine ⟨⟨by simp [partialEval], ?_⟩, ?_, hocc⟩
  · intro n d e hd he
    rw [hocc] at hd he
    have := (lookup_some hn n d).2 hd
    rw [(lookup_some hn n e).2 he] at this
    exact (Option.some.inj this).symm
  · have : s.map (fun p => some p.1) = (s.map Prod.fst).map some := by simp
    show visible (s.map Prod.snd ++ tm.shape) (s.map (fun p => some p.1) ++ List.replicate tm.shape.length none) = _
    rw [this, visible_names _ _ _ (by simp), visible_all]

theorem upd_map (env0 env : Name → Nat) : ∀ (ns : List Name) (n : Name), n ∈ ns →
    upd env0 ns (ns.map env) n = env n := by
  intro ns n h
  unfold upd
  rw [if_pos h]
  have hlt := List.idxOf_lt_length_of_mem h
  rw [List.getD_eq_getElem?_getD, List.getElem?_map, List.getElem?_eq_getElem hlt]
  simp

theorem partialEval_den {s : List (Name × Nat)} (tm : Val α) (hrank : tm.dims.length = tm.arr.shape.length)
    (hs : ∀ n, some n ∈ tm.dims → n ∈ s.map Prod.fst) (env : Name → Nat) (ix : List Nat) :
    den (partialEval s tm) env ix = den tm env ix := by
  have e : s.map (fun p => some p.1) = (s.map Prod.fst).map some := by simp
  unfold den
  show den tm _ _ = _
  simp only [partialEval]
  rw [e, coords_names]
  have hl : ((s.map Prod.fst).map env).length = s.length := by simp
  rw [List.take_append_of_le_length (by omega), List.take_of_length_le (by omega), List.drop_append,
    List.drop_of_length_le (by omega), hl, Nat.sub_self]
  simp only [List.nil_append, List.drop_zero]
  unfold den
  congr 1
  rw [coords_congr tm.dims _ env _ (fun n hn => upd_map _ env _ n (hs n hn))]
  exact den_trailing env tm.dims tm.shape.length ix _ (visible_length _ _ hrank) rfl

/-- Indexing with names and full slices. -/
theorem getitem_ok {v : Val α} (hv : v.Wf) (key : List (Option Name)) (hk : key.length ≤ v.shape.length)
    (hf : ∀ n d e, (Occurs v n d ∨ (d, some n) ∈ v.shape.zip key) →
      (Occurs v n e ∨ (e, some n) ∈ v.shape.zip key) → d = e) :
    ∃ w, getitem v key = .ok w ∧ w.Wf ∧ w.shape = visible v.shape (pad v.shape.length key) ∧
      (∀ n d, Occurs w n d ↔ Occurs v n d ∨ (d, some n) ∈ v.shape.zip key) ∧
      ∀ env ix, den w env ix = den v env (coords (pad v.shape.length key) env ix) := by
  have hpl := pad_length hk
  have hmz : ∀ n d, (d, some n) ∈ v.shape.zip (pad v.shape.length key) ↔ (d, some n) ∈ v.shape.zip key :=
    fun n d => mem_zip_pad n d _ key v.shape
  have hpc : (pad v.shape.length key).length = v.dims.countP Option.isNone := by
    rw [hpl]; exact visible_length _ _ hv.rank
  have hcl := compose_length v.dims _ hpc
  -- the combined index
  have hocc : ∀ n d, Occurs (⟨v.arr, compose v.dims (pad v.shape.length key)⟩ : Val α) n d ↔
      Occurs v n d ∨ (d, some n) ∈ v.shape.zip key := by
    intro n d
    unfold Occurs
    simp only
    rw [mem_compose n d v.dims _ v.arr.shape hv.rank hpl]
    rw [← hmz]
    rfl
  have hwf : (⟨v.arr, compose v.dims (pad v.shape.length key)⟩ : Val α).Wf :=
    ⟨by simp only; rw [hcl, hv.rank], fun n d e hd he => hf n d e ((hocc n d).1 hd) ((hocc n e).1 he)⟩
  have hshape : (⟨v.arr, compose v.dims (pad v.shape.length key)⟩ : Val α).shape =
      visible v.shape (pad v.shape.length key) := visible_compose v.dims _ v.arr.shape hv.rank hpl
  have hden : ∀ env ix, den (⟨v.arr, compose v.dims (pad v.shape.length key)⟩ : Val α) env ix =
      den v env (coords (pad v.shape.length key) env ix) := by
    intro env ix
    unfold den
    simp only
    rw [coords_compose _ _ _ _ hpc]
  obtain ⟨s0, h1, h2, h3⟩ := hv.sizesOf
  obtain ⟨s, g1, g2, g3⟩ := sizesLoop_spec (v.shape.zip (pad v.shape.length key)) s0 h2
    (by
      intro n d e hd he
      rw [h3, hmz] at hd he
      exact hf n d e hd he)
  unfold getitem
  rw [if_neg (by omega), h1]
  simp only
  rw [g1]
  simp only
  split
  · exact ⟨_, rfl, hwf, hshape, hocc, hden⟩
  · split
    · exact ⟨_, rfl, hwf, hshape, hocc, hden⟩
    · obtain ⟨p1, p2, p3⟩ := partialEval_wf (⟨v.arr, compose v.dims (pad v.shape.length key)⟩ : Val α) g2
      refine ⟨_, rfl, p1, p2.trans hshape, ?_, ?_⟩
      · intro n d
        rw [p3, g3, h3, hmz]
      · intro env ix
        rw [partialEval_den _ hwf.rank, hden]
        intro n hn
        obtain ⟨i, hi, e⟩ := List.getElem_of_mem hn
        have hi' : i < v.arr.shape.length := by
          rw [← hv.rank, ← hcl]; exact hi
        have : Occurs (⟨v.arr, compose v.dims (pad v.shape.length key)⟩ : Val α) n v.arr.shape[i] := by
          unfold Occurs
          simp only
          rw [List.mem_iff_getElem]
          exact ⟨i, by simp only [List.length_zip, hcl, hv.rank]; omega, by simp only [List.getElem_zip]; rw [e]⟩
        rw [hocc, ← hmz, ← h3, ← g3] at this
        exact List.mem_map.2 ⟨_, this, rfl⟩

/-! ## Permuting -/

theorem map_getD_range {β : Type} (l : List β) (d : β) : (List.range l.length).map (l.getD · d) = l := by
  apply List.ext_getElem
  · simp
  · intro i h1 h2
    simp [h2]

theorem filter_range {β : Type} (l : List β) (d : β) (p : β → Bool) :
    ((List.range l.length).filter (fun i => p (l.getD i d))).map (l.getD · d) = l.filter p := by
  conv => rhs; rw [← map_getD_range l d]
  rw [List.filter_map]
  rfl

theorem filter_range_zip {β γ : Type} (l : List β) (c : List γ) (d : β) (d' : γ) (p : β → Bool)
    (h : c.length = l.length) :
    ((List.range l.length).filter (fun i => p (l.getD i d))).map (c.getD · d') =
      ((l.zip c).filter (fun q => p q.1)).map Prod.snd := by
  have hz : l.zip c = (List.range l.length).map (fun i => (l.getD i d, c.getD i d')) := by
    apply List.ext_getElem
    · simp [h]
    · intro i h1 h2
      simp only [List.length_map, List.length_range] at h2
      simp [h2, h ▸ h2]
  rw [hz, List.filter_map, List.map_map]
  rfl

theorem idxOf_of_count {β : Type} [BEq β] [LawfulBEq β] {a : β} : ∀ {l : List β} {i : Nat}, l.count a = 1 →
    l[i]? = some a → l.idxOf a = i := by
  intro l
  induction l with
  | nil => intro i h; simp at h
  | cons b l ih =>
    intro i h hi
    by_cases hb : b = a
    · subst hb
      simp only [List.count_cons_self] at h
      have h0 : l.count b = 0 := by omega
      cases i with
      | zero => simp
      | succ i =>
        have : b ∈ l := List.mem_of_getElem? (by simpa using hi)
        exact absurd this (List.count_eq_zero.1 h0)
    · rw [List.count_cons_of_ne hb] at h
      cases i with
      | zero => simp at hi; exact absurd hi hb
      | succ i => rw [List.idxOf_cons_ne _ hb, ih h (by simpa using hi)]

theorem idxOf_map_inj {β γ : Type} [BEq β] [LawfulBEq β] [BEq γ] [LawfulBEq γ] (f : β → γ) {a : β} : ∀ {l : List β}, a ∈ l →
    (∀ x ∈ l, f x = f a → x = a) → (l.map f).idxOf (f a) = l.idxOf a := by
  intro l
  induction l with
  | nil => intro h; simp at h
  | cons b l ih =>
    intro h hf
    by_cases hb : b = a
    · subst hb; simp
    · have hfb : f b ≠ f a := fun e => hb (hf b (by simp) e)
      have ha : a ∈ l := by
        rcases List.mem_cons.1 h with h | h
        · exact absurd h.symm hb
        · exact h
      rw [List.map_cons, List.idxOf_cons_ne _ hfb, List.idxOf_cons_ne _ hb,
        ih ha (fun x hx => hf x (List.mem_cons_of_mem _ hx))]

theorem coords_filter (names : List Name) (env env' : Name → Nat) (h : ∀ n, n ∉ names → env' n = env n) :
    ∀ (ds : List (Option Name)) (ix : List Nat),
    ((ds.zip (coords ds env' ix)).filter (fun q => keep names q.1)).map Prod.snd =
      coords (ds.filter (keep names)) env ix := by
  intro ds
  induction ds with
  | nil => intro _; rfl
  | cons k ds ih =>
    intro ix
    cases k with
    | none =>
      simp only [coords, List.zip_cons_cons]
      rw [List.filter_cons_of_pos (by rfl), List.filter_cons_of_pos (by rfl)]
      simp only [List.map_cons, coords, ih]
    | some n =>
      simp only [coords, List.zip_cons_cons]
      by_cases hn : n ∈ names
      · have hk : ¬ keep names (some n) = true := by simp [keep, hn]
        rw [List.filter_cons_of_neg (by exact hk), List.filter_cons_of_neg hk, ih]
      · have hk : keep names (some n) = true := by simp [keep, hn]
        rw [List.filter_cons_of_pos (by exact hk), List.filter_cons_of_pos hk]
        simp only [List.map_cons, coords, ih, h n hn]

theorem visible_filter (names : List Name) : ∀ (ds : List (Option Name)) (sh : List Nat), ds.length = sh.length →
    visible (((ds.zip sh).filter (fun q => keep names q.1)).map Prod.snd) (ds.filter (keep names)) =
      visible sh ds := by
  intro ds
  induction ds with
  | nil => intro sh _; cases sh <;> rfl
  | cons k ds ih =>
    intro sh h
    cases sh with
    | nil => simp at h
    | cons d sh =>
      have ih' := ih sh (by simpa using h)
      simp only [List.zip_cons_cons]
      cases k with
      | none =>
        rw [List.filter_cons_of_pos (by rfl), List.filter_cons_of_pos (by rfl)]
        simp only [List.map_cons, visible, ih']
      | some n =>
        by_cases hn : n ∈ names
        · have hk : ¬ keep names (some n) = true := by simp [keep, hn]
          rw [List.filter_cons_of_neg (by exact hk), List.filter_cons_of_neg hk, ih']
          rfl
        · have hk : keep names (some n) = true := by simp [keep, hn]
          rw [List.filter_cons_of_pos (by exact hk), List.filter_cons_of_pos hk]
          simp only [List.map_cons, visible, ih']

theorem occurs_filter (names : List Name) (n : Name) (d : Nat) : ∀ (ds : List (Option Name)) (sh : List Nat),
    ds.length = sh.length →
    ((d, some n) ∈ (((ds.zip sh).filter (fun q => keep names q.1)).map Prod.snd).zip (ds.filter (keep names)) ↔
      (d, some n) ∈ sh.zip ds ∧ n ∉ names) := by
  intro ds
  induction ds with
  | nil => intro sh _; cases sh <;> simp
  | cons k ds ih =>
    intro sh h
    cases sh with
    | nil => simp at h
    | cons e sh =>
      have ih' := ih sh (by simpa using h)
      simp only [List.zip_cons_cons]
      cases k with
      | none =>
        rw [List.filter_cons_of_pos (by rfl), List.filter_cons_of_pos (by rfl)]
        simp [ih']
      | some m =>
        by_cases hm : m ∈ names
        · have hk : ¬ keep names (some m) = true := by simp [keep, hm]
          rw [List.filter_cons_of_neg (by exact hk), List.filter_cons_of_neg hk, ih']
          simp only [List.mem_cons, Prod.mk.injEq, Option.some.injEq]
          constructor
          · tauto
          · rintro ⟨⟨-, rfl⟩ | h1, h2⟩
            · exact absurd hm h2
            · exact ⟨h1, h2⟩
        · have hk : keep names (some m) = true := by simp [keep, hm]
          rw [List.filter_cons_of_pos (by exact hk), List.filter_cons_of_pos hk]
          simp only [List.map_cons, List.zip_cons_cons, List.mem_cons, ih', Prod.mk.injEq, Option.some.injEq]
          constructor
          · rintro (⟨rfl, rfl⟩ | h1)
            · exact ⟨Or.inl ⟨rfl, rfl⟩, hm⟩
            · exact ⟨Or.inr h1.1, h1.2⟩
          · tauto

theorem coords_at (env : Name → Nat) : ∀ (ds : List (Option Name)) (ix : List Nat) (j : Nat) (n : Name),
    ds[j]? = some (some n) → (coords ds env ix)[j]? = some (env n) := by
  intro ds
  induction ds with
  | nil => intro ix j n h; simp at h
  | cons k ds ih =>
    intro ix j n h
    cases j with
    | zero =>
      simp at h
      subst h
      simp [coords]
    | succ j =>
      cases k with
      | none => simpa [coords] using ih ix.tail j n (by simpa using h)
      | some m => simpa [coords] using ih ix j n (by simpa using h)

/-- The dimensions in `bind_dims` are permuted. -/
theorem perm_range (names : List Name) (ds : List (Option Name)) (hn : names.Nodup)
    (hc : ∀ n ∈ names, ds.count (some n) = 1) :
    (names.map (fun n => ds.idxOf (some n)) ++
      (List.range ds.length).filter (fun i => keep names (ds.getD i none))).Perm (List.range ds.length) := by
  have hmem : ∀ n ∈ names, some n ∈ ds := fun n h => List.count_pos_iff.1 (by rw [hc n h]; omega)
  have hget : ∀ n ∈ names, ds[ds.idxOf (some n)]? = some (some n) := fun n h => by
    have hlt := List.idxOf_lt_length_of_mem (hmem n h)
    rw [List.getElem?_eq_getElem hlt]
    simp
  have hfirst : (names.map (fun n => ds.idxOf (some n))).Perm
      ((List.range ds.length).filter (fun i => !keep names (ds.getD i none))) := by
    rw [List.perm_ext_iff_of_nodup]
    · intro i
      simp only [List.mem_map, List.mem_filter, List.mem_range, Bool.not_eq_true']
      constructor
      · rintro ⟨n, h1, rfl⟩
        refine ⟨List.idxOf_lt_length_of_mem (hmem n h1), ?_⟩
        rw [List.getD_eq_getElem?_getD, hget n h1]
        simp [keep, h1]
      · rintro ⟨h1, h2⟩
        rw [List.getD_eq_getElem?_getD, List.getElem?_eq_getElem h1] at h2
        simp only [Option.getD_some] at h2
        cases hd : ds[i] with
        | none => rw [hd] at h2; simp [keep] at h2
        | some n =>
          rw [hd] at h2
          have hnm : n ∈ names := by simpa [keep] using h2
          exact ⟨n, hnm, idxOf_of_count (hc n hnm) (by rw [List.getElem?_eq_getElem h1, hd])⟩
    · apply List.Nodup.map_on _ hn
      intro a ha b hb e
      have h1 := hget a ha
      rw [e, hget b hb] at h1
      exact (Option.some.inj (Option.some.inj h1)).symm
    · exact List.Nodup.filter _ List.nodup_range
  exact (hfirst.append_right _).trans ((List.perm_append_comm).trans
    (List.filter_append_perm (fun i => keep names (ds.getD i none)) (List.range ds.length)))

/-- Reading the permuted array. -/
theorem permuted_coords (names : List Name) (ds : List (Option Name))
    (hc : ∀ n ∈ names, ds.count (some n) = 1) (env : Name → Nat) (js ix : List Nat) (hjs : js.length = names.length) :
    (List.range ds.length).map (fun j => (js ++ coords (ds.filter (keep names)) env ix).getD
      ((names.map (fun n => ds.idxOf (some n)) ++
        (List.range ds.length).filter (fun i => keep names (ds.getD i none))).idxOf j) 0) =
      coords ds (upd env names js) ix := by
  have hlen := coords_length ds (upd env names js) ix
  have hmem : ∀ n ∈ names, some n ∈ ds := fun n h => List.count_pos_iff.1 (by rw [hc n h]; omega)
  have hget : ∀ n ∈ names, ds[ds.idxOf (some n)]? = some (some n) := fun n h => by
    have hlt := List.idxOf_lt_length_of_mem (hmem n h)
    rw [List.getElem?_eq_getElem hlt]
    simp
  conv => rhs; rw [← map_getD_range (coords ds (upd env names js) ix) 0, hlen]
  apply List.map_congr_left
  intro j hj
  rw [List.mem_range] at hj
  have hrest : coords (ds.filter (keep names)) env ix =
      ((List.range ds.length).filter (fun i => keep names (ds.getD i none))).map
        ((coords ds (upd env names js) ix).getD · 0) := by
    rw [filter_range_zip ds _ none 0 (keep names) hlen]
    rw [coords_filter names env (upd env names js)]
    intro n h
    unfold upd
    rw [if_neg h]
  by_cases hk : keep names (ds.getD j none) = true
  · -- an entry that stays
    have hnot : j ∉ names.map (fun n => ds.idxOf (some n)) := by
      intro h
      obtain ⟨n, h1, h2⟩ := List.mem_map.1 h
      rw [List.getD_eq_getElem?_getD, ← h2, hget n h1] at hk
      simp [keep, h1] at hk
    have hin : j ∈ (List.range ds.length).filter (fun i => keep names (ds.getD i none)) := by
      rw [List.mem_filter, List.mem_range]
      exact ⟨hj, hk⟩
    rw [List.idxOf_append, if_neg hnot, hrest, List.getD_eq_getElem?_getD,
      List.getElem?_append_right (by simp [hjs])]
    simp only [List.length_map, hjs, Nat.add_sub_cancel]
    rw [List.getElem?_map, List.getElem?_eq_getElem (List.idxOf_lt_length_of_mem hin), List.getElem_idxOf]
    rfl
  · have hdj : ds[j]? = some ds[j] := List.getElem?_eq_getElem hj
    rw [List.getD_eq_getElem?_getD, hdj] at hk
    simp only [Option.getD_some] at hk
    cases hd : ds[j] with
    | none => rw [hd] at hk; simp [keep] at hk
    | some n =>
      rw [hd] at hk hdj
      have hnm : n ∈ names := by simpa [keep] using hk
      have hidx : ds.idxOf (some n) = j := idxOf_of_count (hc n hnm) hdj
      have hin : j ∈ names.map (fun n => ds.idxOf (some n)) := List.mem_map.2 ⟨n, hnm, hidx⟩
      rw [List.idxOf_append, if_pos hin]
      have h1 : (names.map (fun n => ds.idxOf (some n))).idxOf j = names.idxOf n := by
        rw [← hidx]
        apply idxOf_map_inj (fun n => ds.idxOf (some n)) hnm
        intro x hx e
        have h1 := hget x hx
        rw [e, hget n hnm] at h1
        exact (Option.some.inj (Option.some.inj h1)).symm
      rw [h1, List.getD_eq_getElem?_getD, List.getD_eq_getElem?_getD, coords_at _ _ _ _ _ hdj]
      have hlt : names.idxOf n < js.length := by rw [hjs]; exact List.idxOf_lt_length_of_mem hnm
      rw [List.getElem?_append_left hlt]
      unfold upd
      rw [if_pos hnm, List.getD_eq_getElem?_getD]
      rfl

theorem plain_wf (x : Arr α) : (plain x).Wf ∧ (plain x).shape = x.shape ∧ ∀ n d, ¬ Occurs (plain x) n d := by
  have h : ∀ n d, ¬ Occurs (plain x) n d := by
    intro n d h
    have := (List.of_mem_zip h).2
    simp only [plain] at this
    rw [List.mem_replicate] at this
    cases this.2
  exact ⟨⟨by simp [plain], fun n d e hd => absurd hd (h n d)⟩, visible_all _, h⟩

theorem plain_den (x : Arr α) (env : Name → Nat) (ix : List Nat) (h : ix.length = x.shape.length) :
    den (plain x) env ix = x.get ix := by
  unfold den
  simp only [plain]
  have := coords_none env x.shape.length [] ix [] h
  simp only [List.append_nil, coords] at this
  rw [this]

/-! ## Theorems -/

/-- Indexing a tensor with names and full slices: the names of the result are those of the tensor and of the
key, and the entries are those of the tensor at the values of the names of the key. It raises exactly if there
are too many entries or a name would stand for dimensions of different sizes. -/
theorem C37_getitem {v : Val α} (hv : v.Wf) (key : List (Option Name)) :
    ((∃ w, getitem v key = .ok w) ↔ key.length ≤ v.shape.length ∧
      ∀ n d e, (Occurs v n d ∨ (d, some n) ∈ v.shape.zip key) →
        (Occurs v n e ∨ (e, some n) ∈ v.shape.zip key) → d = e) ∧
    ∀ w, getitem v key = .ok w → w.Wf ∧ w.shape = visible v.shape (pad v.shape.length key) ∧
      (∀ n d, Occurs w n d ↔ Occurs v n d ∨ (d, some n) ∈ v.shape.zip key) ∧
      ∀ env ix, den w env ix = den v env (coords (pad v.shape.length key) env ix) := by
  have hiff : (∃ w, getitem v key = .ok w) ↔ key.length ≤ v.shape.length ∧
      ∀ n d e, (Occurs v n d ∨ (d, some n) ∈ v.shape.zip key) →
        (Occurs v n e ∨ (e, some n) ∈ v.shape.zip key) → d = e := by
    constructor
    · rintro ⟨w, h⟩
      unfold getitem at h
      split at h
      · cases h
      · next hl =>
        refine ⟨by omega, ?_⟩
        obtain ⟨s0, h1, h2, h3⟩ := hv.sizesOf
        rw [h1] at h
        simp only at h
        cases hs : sizesLoop s0 (v.shape.zip (pad v.shape.length key)) with
        | none => rw [hs] at h; cases h
        | some s =>
          have := sizesLoop_functional _ s0 s h2 hs
          intro n d e hd he
          apply this n d e
          · rw [h3]
            exact hd.imp id (mem_zip_pad n d _ key v.shape).2
          · rw [h3]
            exact he.imp id (mem_zip_pad n e _ key v.shape).2
    · rintro ⟨h1, h2⟩
      obtain ⟨w, h, _⟩ := getitem_ok hv key h1 h2
      exact ⟨w, h⟩
  refine ⟨hiff, ?_⟩
  intro w hw
  obtain ⟨h1, h2⟩ := hiff.1 ⟨w, hw⟩
  obtain ⟨w', h, h3⟩ := getitem_ok hv key h1 h2
  rw [hw] at h
  cases h
  exact h3

/-- `bind_dims(v, *names)` for distinct names, each of one dimension of `v`: these dimensions come first, in the
order of the names, and nothing else changes. -/
theorem C37_bind_partial {v : Val α} (hv : v.Wf) (names : List Name) (hn : names.Nodup)
    (hc : ∀ n ∈ names, v.dims.count (some n) = 1) :
    ∃ w sz, bind v names = .ok w ∧ w.Wf ∧ sz.length = names.length ∧
      (∀ (k : Nat) n d, names[k]? = some n → sz[k]? = some d → Occurs v n d) ∧ w.shape = sz ++ v.shape ∧
      (∀ n d, Occurs w n d ↔ Occurs v n d ∧ n ∉ names) ∧
      ∀ env js ix, js.length = names.length → den w env (js ++ ix) = den v (upd env names js) ix := by
  obtain ⟨s, h1, h2, h3⟩ := hv.sizesOf
  have hmem : ∀ n ∈ names, some n ∈ v.dims := fun n h => List.count_pos_iff.1 (by rw [hc n h]; omega)
  have hget : ∀ n ∈ names, v.dims[v.dims.idxOf (some n)]? = some (some n) := fun n h => by
    have hlt := List.idxOf_lt_length_of_mem (hmem n h)
    rw [List.getElem?_eq_getElem hlt]
    simp
  have hocc : ∀ n ∈ names, Occurs v n (v.arr.shape.getD (v.dims.idxOf (some n)) 0) := by
    intro n h
    have hlt := List.idxOf_lt_length_of_mem (hmem n h)
    unfold Occurs
    rw [List.mem_iff_getElem]
    refine ⟨v.dims.idxOf (some n), by simp only [List.length_zip]; have := hv.rank; omega, ?_⟩
    have := hv.rank
    simp [List.getElem?_eq_getElem (show v.dims.idxOf (some n) < v.arr.shape.length by omega)]
  unfold bind
  rw [if_neg (by simpa using hn), h1]
  simp only
  by_cases hnil : names = []
  · subst hnil
    refine ⟨v, [], by simp, hv, rfl, by simp, rfl, by simp, ?_⟩
    intro env js ix hl
    rw [List.length_eq_zero_iff.1 hl]
    unfold den
    simp only [List.nil_append]
    rw [coords_congr v.dims env (upd env [] []) ix (fun n _ => by simp [upd])]
  · obtain ⟨n0, hn0⟩ := List.exists_mem_of_ne_nil _ hnil
    have hs0 : n0 ∈ s.map Prod.fst := List.mem_map.2 ⟨_, (h3 _ _).2 (hocc n0 hn0), rfl⟩
    rw [if_neg (by
      simp only [List.all_eq_true, not_forall]
      exact ⟨n0, hn0, by simpa using hs0⟩)]
    rw [if_neg (by
      simp only [List.all_eq_true, not_forall]
      exact ⟨some n0, hmem n0 hn0, by simp⟩)]
    rw [if_neg (by
      simp only [List.all_eq_true, not_not]
      intro n h
      simpa using hmem n h)]
    have hperm := perm_range names v.dims hn hc
    have hpl := hperm.length_eq
    rw [List.length_range] at hpl
    unfold permute
    rw [if_pos ⟨by rw [hpl, hv.rank], hperm.nodup_iff.2 List.nodup_range, fun i hi => by
      have := hperm.mem_iff.1 hi
      rw [List.mem_range, hv.rank] at this
      exact this⟩]
    simp only
    rw [filter_range v.dims none (keep names)]
    generalize hP : ({
        shape := (names.map (fun n => v.dims.idxOf (some n)) ++
            (List.range v.dims.length).filter (fun i => keep names (v.dims.getD i none))).map (v.arr.shape.getD · 0)
        get := fun ix => v.arr.get ((List.range v.arr.shape.length).map (fun j => ix.getD
          ((names.map (fun n => v.dims.idxOf (some n)) ++
            (List.range v.dims.length).filter (fun i => keep names (v.dims.getD i none))).idxOf j) 0)) } : Arr α) = P
    obtain ⟨pw, psh, pocc⟩ := plain_wf P
    have hPs : P.shape = (names.map (fun n => v.arr.shape.getD (v.dims.idxOf (some n)) 0)) ++
        ((v.dims.zip v.arr.shape).filter (fun q => keep names q.1)).map Prod.snd := by
      rw [← hP]
      simp only [List.map_append, List.map_map]
      rw [filter_range_zip v.dims v.arr.shape none 0 (keep names) hv.rank.symm]
      rfl
    have hlf : (((v.dims.zip v.arr.shape).filter (fun q => keep names q.1)).map Prod.snd).length =
        (v.dims.filter (keep names)).length := by
      have e : v.dims.filter (keep names) =
          ((v.dims.zip v.arr.shape).filter (fun q => keep names q.1)).map Prod.fst := by
        conv => lhs; rw [← List.map_fst_zip (l₁ := v.dims) (l₂ := v.arr.shape) (Nat.le_of_eq hv.rank)]
        rw [List.filter_map]
        rfl
      rw [e]
      simp
    have hPl : P.shape.length = names.length + (v.dims.filter (keep names)).length := by
      rw [hPs, List.length_append, hlf, List.length_map]
    have hzip : ∀ n d, (d, some n) ∈ (plain P).shape.zip (List.replicate names.length none ++
        v.dims.filter (keep names)) ↔ Occurs v n d ∧ n ∉ names := by
      intro n d
      rw [psh, hPs]
      rw [List.zip_append (by simp)]
      rw [List.mem_append, occurs_filter names n d v.dims v.arr.shape hv.rank]
      constructor
      · rintro (h | h)
        · have := (List.of_mem_zip h).2
          rw [List.mem_replicate] at this
          cases this.2
        · exact h
      · exact Or.inr
    obtain ⟨w, g1, g2, g3, g4, g5⟩ := getitem_ok pw (List.replicate names.length none ++ v.dims.filter (keep names))
      (by rw [psh, hPl]; simp)
      (by
        intro n d e hd he
        rcases hd with hd | hd
        · exact absurd hd (pocc n d)
        · rcases he with he | he
          · exact absurd he (pocc n e)
          · exact hv.sizes n d e ((hzip n d).1 hd).1 ((hzip n e).1 he).1)
    have hpad : pad (plain P).shape.length (List.replicate names.length none ++ v.dims.filter (keep names)) =
        List.replicate names.length none ++ v.dims.filter (keep names) := by
      unfold pad
      rw [psh, hPl]
      simp
    rw [hpad] at g3 g5
    refine ⟨w, names.map (fun n => v.arr.shape.getD (v.dims.idxOf (some n)) 0), g1, g2, by simp, ?_, ?_, ?_, ?_⟩
    · intro k n d hk hd
      rw [List.getElem?_map, hk] at hd
      simp only [Option.map_some, Option.some.injEq] at hd
      rw [← hd]
      exact hocc n (List.mem_of_getElem? hk)
    · rw [g3, psh, hPs]
      have e : names.length = (names.map (fun n => v.arr.shape.getD (v.dims.idxOf (some n)) 0)).length := by simp
      rw [e, visible_none, visible_filter names v.dims v.arr.shape hv.rank]
      rfl
    · intro n d
      rw [g4, hzip]
      simp [pocc]
    · intro env js ix hjs
      rw [g5, coords_none env _ _ _ _ hjs, plain_den _ _ _ (by
        rw [hPl, List.length_append, coords_length, hjs])]
      rw [← hP]
      simp only
      unfold den
      rw [← hv.rank, permuted_coords names v.dims hc env js ix hjs]

/-- `unbind_dims(v, *names)` for names not used by `v`: the first dimensions get these names. -/
theorem C37_unbind_partial {v : Val α} (hv : v.Wf) (names : List Name) (hn : names.Nodup)
    (hl : names.length ≤ v.shape.length) (hfresh : ∀ n ∈ names, ∀ d, ¬ Occurs v n d) :
    ∃ w, unbind v names = .ok w ∧ w.Wf ∧ w.shape = v.shape.drop names.length ∧
      (∀ n d, Occurs w n d ↔ Occurs v n d ∨ (d, n) ∈ v.shape.zip names) ∧
      ∀ env ix, ix.length = v.shape.length - names.length → den w env ix = den v env (names.map env ++ ix) := by
  have hz : ∀ n d, (d, some n) ∈ v.shape.zip (names.map some) ↔ (d, n) ∈ v.shape.zip names := by
    intro n d
    rw [List.zip_map_right, List.mem_map]
    constructor
    · rintro ⟨⟨a, b⟩, h1, h2⟩
      simp only [Prod.map_apply, id_eq, Prod.mk.injEq, Option.some.injEq] at h2
      obtain ⟨rfl, rfl⟩ := h2
      exact h1
    · intro h
      exact ⟨(d, n), h, rfl⟩
  have huniq : ∀ (l : List Nat) (names : List Name), names.Nodup → ∀ n d e, (d, n) ∈ l.zip names →
      (e, n) ∈ l.zip names → d = e := by
    intro l
    induction l with
    | nil => intro names _ n d e h; simp at h
    | cons x l ih =>
      intro names hn n d e hd he
      cases names with
      | nil => simp at hd
      | cons m names =>
        simp only [List.nodup_cons] at hn
        simp only [List.zip_cons_cons, List.mem_cons, Prod.mk.injEq] at hd he
        rcases hd with ⟨rfl, rfl⟩ | hd
        · rcases he with ⟨rfl, _⟩ | he
          · rfl
          · exact absurd (List.of_mem_zip he).2 hn.1
        · rcases he with ⟨rfl, rfl⟩ | he
          · exact absurd (List.of_mem_zip hd).2 hn.1
          · exact ih names hn.2 n d e hd he
  obtain ⟨w, h1, h2, h3, h4, h5⟩ := getitem_ok hv (names.map some) (by simpa using hl)
    (by
      intro n d e hd he
      rw [hz] at hd he
      rcases hd with hd | hd
      · rcases he with he | he
        · exact hv.sizes n d e hd he
        · exact absurd hd (hfresh n (List.of_mem_zip he).2 d)
      · rcases he with he | he
        · exact absurd he (hfresh n (List.of_mem_zip hd).2 e)
        · exact huniq _ _ hn n d e hd he)
  refine ⟨w, h1, h2, ?_, fun n d => by rw [h4, hz], ?_⟩
  · rw [h3]
    unfold pad
    conv => lhs; rw [← List.take_append_drop names.length v.shape]
    rw [visible_names _ _ _ (by simp; omega)]
    have : (List.take names.length v.shape ++ List.drop names.length v.shape).length - (names.map some).length =
        (v.shape.drop names.length).length := by simp
    rw [this, visible_all]
  · intro env ix hix
    rw [h5]
    unfold pad
    rw [coords_names]
    have := coords_none env (v.shape.length - (names.map some).length) [] ix [] (by simpa using hix)
    simp only [List.append_nil, coords] at this
    rw [this]

/-- Unbinding names after binding them gives the tensor back. -/
theorem C37_bind_unbind_partial {v : Val α} (hv : v.Wf) (names : List Name) (hn : names.Nodup)
    (hc : ∀ n ∈ names, v.dims.count (some n) = 1) :
    ∃ w u, bind v names = .ok w ∧ unbind w names = .ok u ∧ Same u v := by
  obtain ⟨w, sz, b1, b2, b3, b4, b5, b6, b7⟩ := C37_bind_partial hv names hn hc
  obtain ⟨u, u1, u2, u3, u4, u5⟩ := C37_unbind_partial b2 names hn (by rw [b5, List.length_append]; omega)
    (fun n h d ho => ((b6 n d).1 ho).2 h)
  have hshape : u.shape = v.shape := by
    rw [u3, b5, ← b3]
    simp
  refine ⟨w, u, b1, u1, hshape, ?_, ?_⟩
  · intro n d
    rw [u4, b6, b5]
    have hz : (d, n) ∈ (sz ++ v.shape).zip names ↔ (d, n) ∈ sz.zip names := by
      have : (sz ++ v.shape).zip names = sz.zip names := by
        have := List.zip_append (l₁ := sz) (l₂ := names) (r₁ := v.shape) (r₂ := ([] : List Name)) b3
        simpa using this
      rw [this]
    rw [hz]
    constructor
    · rintro (h | h)
      · exact h.1
      · obtain ⟨k, hk, e⟩ := List.getElem_of_mem h
        simp only [List.length_zip] at hk
        simp only [List.getElem_zip, Prod.mk.injEq] at e
        exact b4 k n d (by rw [List.getElem?_eq_getElem (by omega), e.2])
          (by rw [List.getElem?_eq_getElem (by omega), e.1])
    · intro h
      by_cases hm : n ∈ names
      · right
        obtain ⟨k, hk, e⟩ := List.getElem_of_mem hm
        have hk' : k < sz.length := by omega
        have := b4 k n sz[k] (by rw [List.getElem?_eq_getElem hk, e]) (List.getElem?_eq_getElem hk')
        have hd := hv.sizes n d _ h this
        rw [List.mem_iff_getElem]
        exact ⟨k, by simp only [List.length_zip]; omega, by simp only [List.getElem_zip]; rw [e, hd]⟩
      · exact Or.inl ⟨h, hm⟩
  · intro env ix hix
    rw [hshape] at hix
    have hl : ix.length = w.shape.length - names.length := by
      rw [b5, List.length_append, b3]; omega
    rw [u5 env ix hl, b7 env _ ix (by simp)]
    unfold den
    rw [coords_congr v.dims (upd env names (names.map env)) env ix (fun n _ => by
      by_cases hm : n ∈ names
      · exact upd_map env env names n hm
      · simp [upd, hm])]

theorem compose_count (n : Name) : ∀ (ds key : List (Option Name)), key.length = ds.countP Option.isNone →
    (compose ds key).count (some n) = ds.count (some n) + key.count (some n) := by
  intro ds
  induction ds with
  | nil =>
    intro key h
    have : key = [] := List.length_eq_zero_iff.1 (by simpa using h)
    rw [this]
    rfl
  | cons k ds ih =>
    intro key h
    cases k with
    | some m =>
      simp only [compose, List.count_cons, ih key (by simpa using h)]
      omega
    | none =>
      cases key with
      | nil => simp at h
      | cons k key =>
        simp only [compose, List.count_cons, ih key (by simpa using h)]
        simp
        omega

/-- A name that occurs once in all occurs once in the result. -/
theorem getitem_count {v w : Val α} (hv : v.Wf) {key : List (Option Name)} (h : getitem v key = .ok w) (n : Name)
    (hn : v.dims.count (some n) + key.count (some n) = 1) : w.dims.count (some n) = 1 := by
  have hk : key.length ≤ v.shape.length := ((C37_getitem hv key).1.1 ⟨w, h⟩).1
  have hf := ((C37_getitem hv key).1.1 ⟨w, h⟩).2
  have hpc : (pad v.shape.length key).length = v.dims.countP Option.isNone := by
    rw [pad_length hk]; exact visible_length _ _ hv.rank
  have hcount : (compose v.dims (pad v.shape.length key)).count (some n) = 1 := by
    rw [compose_count n _ _ hpc]
    unfold pad
    rw [List.count_append, List.count_replicate]
    simpa using hn
  have hcl := compose_length v.dims _ hpc
  obtain ⟨s0, h1, h2, h3⟩ := hv.sizesOf
  have hmz : ∀ n d, (d, some n) ∈ v.shape.zip (pad v.shape.length key) ↔ (d, some n) ∈ v.shape.zip key :=
    fun n d => mem_zip_pad n d _ key v.shape
  obtain ⟨s, g1, g2, g3⟩ := sizesLoop_spec (v.shape.zip (pad v.shape.length key)) s0 h2
    (by
      intro n d e hd he
      rw [h3, hmz] at hd he
      exact hf n d e hd he)
  unfold getitem at h
  rw [if_neg (by omega), h1] at h
  simp only at h
  rw [g1] at h
  simp only at h
  split at h
  · cases h; exact hcount
  · split at h
    · cases h; exact hcount
    · cases h
      have hmem : some n ∈ compose v.dims (pad v.shape.length key) :=
        List.count_pos_iff.1 (by omega)
      obtain ⟨i, hi, e⟩ := List.getElem_of_mem hmem
      have hi' : i < v.arr.shape.length := by rw [← hv.rank, ← hcl]; exact hi
      have hin : (v.arr.shape[i], some n) ∈ v.arr.shape.zip (compose v.dims (pad v.shape.length key)) := by
        rw [List.mem_iff_getElem]
        exact ⟨i, by simp only [List.length_zip, hcl, hv.rank]; omega, by simp only [List.getElem_zip]; rw [e]⟩
      have hin := (mem_compose n _ v.dims _ v.arr.shape hv.rank (pad_length hk)).1 hin
      have hns : n ∈ s.map Prod.fst := List.mem_map.2 ⟨(n, v.arr.shape[i]), (g3 _ _).2 (by
        rw [h3]; exact hin), rfl⟩
      have e2 : s.map (fun p => some p.1) = (s.map Prod.fst).map some := by simp
      simp only [partialEval]
      rw [e2, List.count_append, List.count_replicate]
      simp only [beq_iff_eq, reduceCtorEq, if_false, Nat.add_zero]
      apply List.count_eq_one_of_mem
      · exact List.Nodup.map (fun _ _ h => Option.some.inj h) g2
      · exact List.mem_map.2 ⟨n, hns, rfl⟩

/-- Binding names again after unbinding them gives the tensor back. -/
theorem C37_unbind_bind_partial {v : Val α} (hv : v.Wf) (names : List Name) (hn : names.Nodup)
    (hl : names.length ≤ v.shape.length) (hfresh : ∀ n ∈ names, ∀ d, ¬ Occurs v n d) :
    ∃ w u, unbind v names = .ok w ∧ bind w names = .ok u ∧ Same u v := by
  obtain ⟨w, u1, u2, u3, u4, u5⟩ := C37_unbind_partial hv names hn hl hfresh
  have hc : ∀ n ∈ names, w.dims.count (some n) = 1 := by
    intro n h
    apply getitem_count hv u1 n
    have h0 : v.dims.count (some n) = 0 := by
      rw [List.count_eq_zero]
      intro hm
      obtain ⟨i, hi, e⟩ := List.getElem_of_mem hm
      have hi' : i < v.arr.shape.length := by rw [← hv.rank]; exact hi
      apply hfresh n h v.arr.shape[i]
      unfold Occurs
      rw [List.mem_iff_getElem]
      exact ⟨i, by simp only [List.length_zip]; omega, by simp only [List.getElem_zip]; rw [e]⟩
    rw [h0, Nat.zero_add]
    exact List.count_eq_one_of_mem (List.Nodup.map (fun _ _ h => Option.some.inj h) hn) (List.mem_map.2 ⟨n, h, rfl⟩)
  obtain ⟨u, sz, b1, b2, b3, b4, b5, b6, b7⟩ := C37_bind_partial u2 names hn hc
  have hsz : sz = v.shape.take names.length := by
    apply List.ext_getElem
    · rw [b3]; simp; omega
    · intro k h1 h2
      have hk : k < names.length := by omega
      have hkv : k < v.shape.length := by omega
      have ho := b4 k names[k] sz[k] (List.getElem?_eq_getElem hk) (List.getElem?_eq_getElem h1)
      have ho' : Occurs w names[k] v.shape[k] := by
        rw [u4]
        right
        rw [List.mem_iff_getElem]
        exact ⟨k, by simp only [List.length_zip]; omega, by simp only [List.getElem_zip]⟩
      rw [u2.sizes _ _ _ ho ho']
      simp
  have hshape : u.shape = v.shape := by rw [b5, hsz, u3, List.take_append_drop]
  refine ⟨w, u, u1, b1, hshape, ?_, ?_⟩
  · intro n d
    rw [b6, u4]
    constructor
    · rintro ⟨h | h, h'⟩
      · exact h
      · exact absurd (List.of_mem_zip h).2 h'
    · intro h
      exact ⟨Or.inl h, fun hm => hfresh n hm d h⟩
  · intro env ix hix
    rw [hshape] at hix
    have e : ix = ix.take names.length ++ ix.drop names.length := (List.take_append_drop _ _).symm
    rw [e, b7 env (ix.take names.length) _ (by simp; omega), u5 _ _ (by simp; omega)]
    have hm : names.map (upd env names (ix.take names.length)) = ix.take names.length := by
      apply List.ext_getElem
      · simp; omega
      · intro k h1 h2
        simp only [List.length_map] at h1
        simp only [List.getElem_map]
        unfold upd
        rw [if_pos (List.getElem_mem _), List.Nodup.idxOf_getElem hn, List.getD_eq_getElem?_getD,
          List.getElem?_eq_getElem h2]
        rfl
    rw [hm]
    unfold den
    rw [coords_congr v.dims (upd env names (ix.take names.length)) env _ (fun n hn' => by
      unfold upd
      rw [if_neg]
      intro hm'
      obtain ⟨i, hi, e'⟩ := List.getElem_of_mem hn'
      have hi' : i < v.arr.shape.length := by rw [← hv.rank]; exact hi
      apply hfresh n hm' v.arr.shape[i]
      unfold Occurs
      rw [List.mem_iff_getElem]
      exact ⟨i, by simp only [List.length_zip]; omega, by simp only [List.getElem_zip]; rw [e']⟩)]

/-- Repeated names are rejected; names of which none occurs change nothing; if only some occur, the operation
stays a term. -/
theorem C37_other_names {v : Val α} (hv : v.Wf) (names : List Name) :
    (¬ names.Nodup → bind v names = .error .value) ∧
    (names.Nodup → (∀ n ∈ names, ∀ d, ¬ Occurs v n d) → bind v names = .ok v) ∧
    (names.Nodup → (∃ n ∈ names, ∃ d, Occurs v n d) → (∃ n ∈ names, ∀ d, ¬ Occurs v n d) →
      bind v names = .error .notHandled) := by
  obtain ⟨s, h1, h2, h3⟩ := hv.sizesOf
  have hs : ∀ n, n ∈ s.map Prod.fst ↔ ∃ d, Occurs v n d := by
    intro n
    rw [List.mem_map]
    constructor
    · rintro ⟨p, hp, rfl⟩
      exact ⟨p.2, (h3 _ _).1 hp⟩
    · rintro ⟨d, h⟩
      exact ⟨(n, d), (h3 _ _).2 h, rfl⟩
  refine ⟨?_, ?_, ?_⟩
  · intro h
    unfold bind
    rw [if_pos h]
  · intro hn h
    unfold bind
    rw [if_neg (by simpa using hn), h1]
    simp only
    rw [if_pos]
    rw [List.all_eq_true]
    intro n hm
    have : n ∉ s.map Prod.fst := fun hh => by
      obtain ⟨d, hd⟩ := (hs n).1 hh
      exact h n hm d hd
    simpa using this
  · rintro hn ⟨n, hm, d, hd⟩ ⟨m, hm', hno⟩
    unfold bind
    rw [if_neg (by simpa using hn), h1]
    simp only
    rw [if_neg (by
      simp only [List.all_eq_true, not_forall]
      exact ⟨n, hm, by simpa using (hs n).2 ⟨d, hd⟩⟩)]
    split
    · rfl
    · rw [if_pos]
      simp only [List.all_eq_true, not_forall]
      refine ⟨m, hm', ?_⟩
      simp only [List.contains_eq_mem, decide_eq_true_eq]
      intro hmem
      obtain ⟨i, hi, e⟩ := List.getElem_of_mem hmem
      have hi' : i < v.arr.shape.length := by rw [← hv.rank]; exact hi
      apply hno v.arr.shape[i]
      unfold Occurs
      rw [List.mem_iff_getElem]
      exact ⟨i, by simp only [List.length_zip]; omega, by simp only [List.getElem_zip]; rw [e]⟩

/-! ## Examples and failures -/

/-- `x[a(), b()]` for an array `x` of shape `(2, 3, 4)`. -/
def ex : Val (List Nat) := ⟨⟨[2, 3, 4], id⟩, [some "a", some "b", none]⟩

theorem ex_wf : ex.Wf := ⟨rfl, fun n d e hd he => by
  simp [Occurs, ex] at hd he
  rcases hd with ⟨rfl, rfl⟩ | ⟨rfl, rfl⟩ <;> rcases he with ⟨rfl, h⟩ | ⟨rfl, h⟩ <;> first | rfl | (simp at h)⟩

/-- `bind_dims(x[a(), b()], b, a)` has shape `(3, 2, 4)`. -/
example : (bind ex ["b", "a"]).toOption.map Val.shape = some [3, 2, 4] := by decide

example : (bind ex ["b"]).toOption.map (fun w => (w.shape, den w (fun _ => 1) [2, 3])) = some ([3, 4], [1, 2, 3]) := by
  decide

/-- Names with two dimensions cannot be bound: `bind_dims(x[a(), a()], a)` raises RuntimeError, although the value
is a tensor with the one named dimension `a`. -/
theorem C37_repeated_fails : ∃ v : Val (List Nat), v.Wf ∧ (∃ x, unbind (plain x) ["a", "a"] = .ok v) ∧
    v.sizes = some [("a", 2)] ∧ (match bind v ["a"] with | .error .runtime => True | _ => False) := by
  refine ⟨⟨⟨[2, 2], id⟩, [some "a", some "a"]⟩, ⟨rfl, ?_⟩, ⟨⟨[2, 2], id⟩, rfl⟩, rfl, trivial⟩
  intro n d e hd he
  simp [Occurs] at hd he
  rw [hd.1, he.1]

end Verif.Indexed.Named
