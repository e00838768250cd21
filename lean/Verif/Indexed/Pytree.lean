import Verif.Indexed.Jax

/-!
# C104: bind_dims and unbind_dims of containers

Model of `bind_dims` and `unbind_dims` of jax for containers (`handlers/jax/_handlers.py` 187-226) and of the dispatch on the
type of the argument (`ops/types.py` 24-42). Arrays, and what the two operations do with them, are those of C87.

Simplifications: a container is what `jax.tree` gives: its kind and keys (one number), and its items, for dictionaries in the
order of their keys; `None` is a container without items. Terms other than arrays with named dimensions, and distributions (C99), are
left out. What a call of a function gives is arbitrary.
-/

namespace Verif.Indexed.Pytree

open Verif.Indexed.Named hiding bind unbind
open Verif.Indexed.Jax (bind unbind)

variable {α β γ δ ε : Type}

/-- A value as `jax.tree` sees it. -/
inductive Tree (β : Type) where
  | leaf (b : β)
  | node (kind : Nat) (items : List (Tree β))

/-- Objects that are not containers. -/
inductive Obj (α : Type) where
  | arr (v : Val α)
  /-- Numbers, strings and other objects that cannot be called. -/
  | other
  | fn (k : Nat)

/-- Objects in results: arrays, terms `bind_dims(v, *names)`, and results of functions. -/
inductive Out (α : Type) where
  | arr (v : Val α)
  | term (v : Val α) (names : List Name)
  | result (k : Nat)

inductive PErr where
  | named (e : Err)
  /-- TypeError -/
  | type
deriving DecidableEq

mutual
/-- `treedef.num_nodes`. -/
def numNodes : Tree β → Nat
  | .leaf _ => 1
  | .node _ ts => 1 + numNodesAll ts

def numNodesAll : List (Tree β) → Nat
  | [] => 0
  | t :: ts => numNodes t + numNodesAll ts
end

mutual
/-- `jax.tree.map(f, t)`, for `f` that may raise. -/
def mapTree (f : β → Except ε γ) : Tree β → Except ε (Tree γ)
  | .leaf b =>
    match f b with
    | .ok c => .ok (.leaf c)
    | .error e => .error e
  | .node k ts =>
    match mapTrees f ts with
    | .ok us => .ok (.node k us)
    | .error e => .error e

def mapTrees (f : β → Except ε γ) : List (Tree β) → Except ε (List (Tree γ))
  | [] => .ok []
  | t :: ts =>
    match mapTree f t with
    | .error e => .error e
    | .ok u =>
      match mapTrees f ts with
      | .ok us => .ok (u :: us)
      | .error e => .error e
end

/-- The implementation registered for `object`, which is the function under the decorator itself (`ops/types.py` 29, 42), called
as `func(value, *names)` (`_handlers.py` 212): its parameter `__dispatch` is the value and its parameter `value` is the first
name. There is a TypeError if there is no name. A name is a leaf, so that the value is called with the type of the name, and
the result with the names. -/
def byDefault (call : Nat → List Name → Except PErr (Out α)) (names : List Name) : Tree (Obj α) → Except PErr (Out α)
  | .leaf (.fn k) => if names.isEmpty then .error .type else call k names
  | _ => .error .type

/-- `__dispatch(typeof(value))(value, *names)` of `bind_dims` (212). An operation that raises NotHandled gives a term. -/
def bindLeaf (call : Nat → List Name → Except PErr (Out α)) (names : List Name) : Tree (Obj α) → Except PErr (Out α)
  | .leaf (.arr v) =>
    match bind v names with
    | .ok w => .ok (.arr w)
    | .error .notHandled => .ok (.term v names)
    | .error e => .error (.named e)
  | t => byDefault call names t

/-- The same for `unbind_dims` (225). -/
def unbindLeaf (call : Nat → List Name → Except PErr (Out α)) (names : List Name) : Tree (Obj α) → Except PErr (Out α)
  | .leaf (.arr v) =>
    match unbind v names with
    | .ok w => .ok (.arr w)
    | .error e => .error (.named e)
  | t => byDefault call names t

/-- The two functions (211-213, 224-226), for what they do with a leaf. `treedef_is_leaf` is `num_nodes == 1`. -/
def onTree (impl : Tree (Obj α) → Except PErr (Out α)) (value : Tree (Obj α)) : Except PErr (Tree (Out α)) :=
  if numNodes value = 1 then
    match impl value with
    | .ok o => .ok (.leaf o)
    | .error e => .error e
  else mapTree (fun b => impl (.leaf b)) value

/-- `bind_dims(value, *names)`. -/
def bindDims (call : Nat → List Name → Except PErr (Out α)) (names : List Name) (value : Tree (Obj α)) :
    Except PErr (Tree (Out α)) := onTree (bindLeaf call names) value

/-- `unbind_dims(value, *names)`. -/
def unbindDims (call : Nat → List Name → Except PErr (Out α)) (names : List Name) (value : Tree (Obj α)) :
    Except PErr (Tree (Out α)) := onTree (unbindLeaf call names) value

/-! ## Specification -/

mutual
/-- Containers of the same structure, with items in a relation. -/
inductive Rel (R : β → γ → Prop) : Tree β → Tree γ → Prop
  | leaf {b c} : R b c → Rel R (.leaf b) (.leaf c)
  | node {k ts us} : Rels R ts us → Rel R (.node k ts) (.node k us)

inductive Rels (R : β → γ → Prop) : List (Tree β) → List (Tree γ) → Prop
  | nil : Rels R [] []
  | cons {t u ts us} : Rel R t u → Rels R ts us → Rels R (t :: ts) (u :: us)
end

mutual
/-- The objects in a container, from left to right. -/
def leaves : Tree β → List β
  | .leaf b => [b]
  | .node _ ts => leavesAll ts

def leavesAll : List (Tree β) → List β
  | [] => []
  | t :: ts => leaves t ++ leavesAll ts
end

/-- `None`, `()`, `[]` and `{}`. -/
def Empty (t : Tree β) : Prop := ∃ k, t = .node k []

/-- What an operation does with one object. -/
def On (op : Tree β → Except PErr (Tree γ)) (b : β) (c : γ) : Prop := op (.leaf b) = .ok (.leaf c)

/-! ## Lemmas -/

theorem numNodes_pos (t : Tree β) : 1 ≤ numNodes t := by
  cases t <;> simp [numNodes]

theorem numNodes_one (t : Tree β) : numNodes t = 1 ↔ (∃ b, t = .leaf b) ∨ Empty t := by
  cases t with
  | leaf b => simp [numNodes]
  | node k ts =>
    cases ts with
    | nil => simp [numNodes, numNodesAll, Empty]
    | cons t ts =>
      have := numNodes_pos t
      simp [numNodes, numNodesAll, Empty]
      omega

mutual
theorem mapTree_ok (f : β → Except ε γ) : ∀ (t : Tree β) (u : Tree γ),
    mapTree f t = .ok u ↔ Rel (fun b c => f b = .ok c) t u
  | .leaf b, u => by
    simp only [mapTree]
    constructor
    · intro h
      split at h
      · next c e => cases h; exact .leaf e
      · cases h
    · rintro (h | h)
      rw [h]
  | .node k ts, u => by
    simp only [mapTree]
    constructor
    · intro h
      split at h
      · next us e => cases h; exact .node ((mapTrees_ok f ts us).1 e)
      · cases h
    · intro h
      cases h with
      | node h => rw [(mapTrees_ok f ts _).2 h]

theorem mapTrees_ok (f : β → Except ε γ) : ∀ (ts : List (Tree β)) (us : List (Tree γ)),
    mapTrees f ts = .ok us ↔ Rels (fun b c => f b = .ok c) ts us
  | [], us => by
    simp only [mapTrees]
    constructor
    · intro h; cases h; exact .nil
    · intro h; cases h; rfl
  | t :: ts, us => by
    simp only [mapTrees]
    constructor
    · intro h
      split at h
      · cases h
      · next u e =>
        split at h
        · next us' e' => cases h; exact .cons ((mapTree_ok f t u).1 e) ((mapTrees_ok f ts us').1 e')
        · cases h
    · intro h
      cases h with
      | cons h h' => rw [(mapTree_ok f t _).2 h]; simp only; rw [(mapTrees_ok f ts _).2 h']
end

/-- The first object for which the function raises. -/
def FirstError (f : β → Except ε γ) (l : List β) (e : ε) : Prop :=
  ∃ pre b post, l = pre ++ b :: post ∧ (∀ x ∈ pre, ∃ c, f x = .ok c) ∧ f b = .error e

theorem firstError_append (f : β → Except ε γ) (l m : List β) (e : ε) :
    FirstError f (l ++ m) e ↔ FirstError f l e ∨ ((∀ x ∈ l, ∃ c, f x = .ok c) ∧ FirstError f m e) := by
  constructor
  · rintro ⟨pre, b, post, h, hp, hb⟩
    rcases List.append_eq_append_iff.1 h with ⟨as, e1, e2⟩ | ⟨bs, e1, e2⟩
    · refine .inr ⟨fun x hx => hp x (by rw [e1]; exact List.mem_append_left _ hx), as, b, post, e2, fun x hx =>
        hp x (by rw [e1]; exact List.mem_append_right _ hx), hb⟩
    · cases bs with
      | nil =>
        simp at e1 e2
        subst e1
        exact .inr ⟨hp, [], b, post, e2.symm, by simp, hb⟩
      | cons b' bs =>
        simp at e2
        obtain ⟨rfl, e2⟩ := e2
        exact .inl ⟨pre, b, bs, e1, hp, hb⟩
  · rintro (⟨pre, b, post, h, hp, hb⟩ | ⟨hl, pre, b, post, h, hp, hb⟩)
    · exact ⟨pre, b, post ++ m, by rw [h]; simp, hp, hb⟩
    · refine ⟨l ++ pre, b, post, by rw [h]; simp, fun x hx => ?_, hb⟩
      rcases List.mem_append.1 hx with hx | hx
      · exact hl x hx
      · exact hp x hx

mutual
theorem rel_of_leaves (R : β → γ → Prop) : ∀ t : Tree β, (∀ b ∈ leaves t, ∃ c, R b c) → ∃ u, Rel R t u
  | .leaf b, h => by
    obtain ⟨c, hc⟩ := h b (by simp [leaves])
    exact ⟨_, .leaf hc⟩
  | .node k ts, h => by
    obtain ⟨us, hu⟩ := rels_of_leaves R ts (by simpa [leaves] using h)
    exact ⟨_, .node hu⟩

theorem rels_of_leaves (R : β → γ → Prop) : ∀ ts : List (Tree β), (∀ b ∈ leavesAll ts, ∃ c, R b c) → ∃ us, Rels R ts us
  | [], _ => ⟨[], .nil⟩
  | t :: ts, h => by
    obtain ⟨u, hu⟩ := rel_of_leaves R t (fun b hb => h b (by simp [leavesAll, hb]))
    obtain ⟨us, hus⟩ := rels_of_leaves R ts (fun b hb => h b (by simp [leavesAll, hb]))
    exact ⟨_, .cons hu hus⟩
end

mutual
theorem leaves_of_rel {R : β → γ → Prop} : ∀ {t : Tree β} {u : Tree γ}, Rel R t u → ∀ b ∈ leaves t, ∃ c ∈ leaves u, R b c
  | .leaf b, _, .leaf h, b', hb => by
    simp [leaves] at hb
    subst hb
    exact ⟨_, by simp [leaves], h⟩
  | .node k ts, _, .node h, b', hb => by
    simp only [leaves] at hb ⊢
    exact leavesAll_of_rels h b' hb

theorem leavesAll_of_rels {R : β → γ → Prop} : ∀ {ts : List (Tree β)} {us : List (Tree γ)}, Rels R ts us →
    ∀ b ∈ leavesAll ts, ∃ c ∈ leavesAll us, R b c
  | [], _, .nil, b, hb => by simp [leavesAll] at hb
  | t :: ts, _, .cons h h', b, hb => by
    simp only [leavesAll, List.mem_append] at hb ⊢
    rcases hb with hb | hb
    · obtain ⟨c, hc, r⟩ := leaves_of_rel h b hb
      exact ⟨c, .inl hc, r⟩
    · obtain ⟨c, hc, r⟩ := leavesAll_of_rels h' b hb
      exact ⟨c, .inr hc, r⟩
end

mutual
theorem rel_mono {R S : β → γ → Prop} : ∀ {t : Tree β} {u : Tree γ}, Rel R t u →
    (∀ b ∈ leaves t, ∀ c, R b c → S b c) → Rel S t u
  | .leaf b, _, .leaf h, hm => .leaf (hm b (by simp [leaves]) _ h)
  | .node k ts, _, .node h, hm => .node (rels_mono h (by simpa [leaves] using hm))

theorem rels_mono {R S : β → γ → Prop} : ∀ {ts : List (Tree β)} {us : List (Tree γ)}, Rels R ts us →
    (∀ b ∈ leavesAll ts, ∀ c, R b c → S b c) → Rels S ts us
  | [], _, .nil, _ => .nil
  | t :: ts, _, .cons h h', hm => .cons (rel_mono h fun b hb => hm b (by simp [leavesAll, hb]))
      (rels_mono h' fun b hb => hm b (by simp [leavesAll, hb]))
end

mutual
theorem mapTree_error (f : β → Except ε γ) : ∀ (t : Tree β) (e : ε), mapTree f t = .error e ↔ FirstError f (leaves t) e
  | .leaf b, e => by
    simp only [mapTree, leaves]
    constructor
    · intro h
      split at h
      · cases h
      · next e' he => cases h; exact ⟨[], b, [], rfl, by simp, he⟩
    · rintro ⟨pre, b', post, h, _, hb⟩
      cases pre with
      | nil =>
        simp at h
        obtain ⟨rfl, _⟩ := h
        rw [hb]
      | cons x pre => simp at h
  | .node k ts, e => by
    simp only [mapTree, leaves]
    rw [← mapTrees_error f ts e]
    split
    · next us h => simp [h]
    · next e' h => simp [h]

theorem mapTrees_error (f : β → Except ε γ) : ∀ (ts : List (Tree β)) (e : ε),
    mapTrees f ts = .error e ↔ FirstError f (leavesAll ts) e
  | [], e => by
    simp only [mapTrees, leavesAll]
    constructor
    · intro h; cases h
    · rintro ⟨pre, b, post, h, _⟩
      simp at h
  | t :: ts, e => by
    simp only [mapTrees, leavesAll]
    rw [firstError_append, ← mapTree_error f t e, ← mapTrees_error f ts e]
    cases ht : mapTree f t with
    | error e' =>
      simp only
      constructor
      · intro h; cases h; exact .inl rfl
      · rintro (h | ⟨h, _⟩)
        · cases h; rfl
        · obtain ⟨pre, b, post, hl, _, hb⟩ := (mapTree_error f t e').1 ht
          obtain ⟨c, hc⟩ := h b (by rw [hl]; simp)
          rw [hb] at hc
          cases hc
    | ok u =>
      have hall : ∀ x ∈ leaves t, ∃ c, f x = .ok c := fun x hx => by
        obtain ⟨c, _, h⟩ := leaves_of_rel ((mapTree_ok f t u).1 ht) x hx
        exact ⟨c, h⟩
      simp only
      constructor
      · intro h
        refine .inr ⟨hall, ?_⟩
        split at h
        · cases h
        · next e' he => cases h; exact he
      · rintro (h | ⟨_, h⟩)
        · cases h
        · rw [h]
end

theorem onTree_leaf (impl : Tree (Obj α) → Except PErr (Out α)) (b : Obj α) :
    onTree impl (.leaf b) = match impl (.leaf b) with | .ok o => .ok (.leaf o) | .error e => .error e := by
  simp [onTree, numNodes]

theorem onTree_on (impl : Tree (Obj α) → Except PErr (Out α)) (b : Obj α) (c : Out α) :
    On (onTree impl) b c ↔ impl (.leaf b) = .ok c := by
  unfold On
  rw [onTree_leaf]
  cases impl (.leaf b) <;> simp

theorem onTree_leaf_error (impl : Tree (Obj α) → Except PErr (Out α)) (b : Obj α) (e : PErr) :
    onTree impl (.leaf b) = .error e ↔ impl (.leaf b) = .error e := by
  rw [onTree_leaf]
  cases impl (.leaf b) <;> simp

/-- For what an operation does with containers only what it does with objects matters. -/
theorem onTree_ok (impl : Tree (Obj α) → Except PErr (Out α)) (hemp : ∀ k, impl (.node k []) = .error .type)
    (t : Tree (Obj α)) (u : Tree (Out α)) :
    onTree impl t = .ok u ↔ ¬ Empty t ∧ Rel (On (onTree impl)) t u := by
  have hR : (On (onTree impl)) = fun b c => impl (.leaf b) = .ok c := by
    funext b c
    exact propext (onTree_on impl b c)
  rw [hR]
  by_cases h1 : numNodes t = 1
  · rcases (numNodes_one t).1 h1 with ⟨b, rfl⟩ | ⟨k, rfl⟩
    · rw [onTree_leaf]
      constructor
      · intro h
        refine ⟨by simp [Empty], ?_⟩
        cases hi : impl (.leaf b) with
        | ok o => rw [hi] at h; cases h; exact .leaf hi
        | error e => rw [hi] at h; cases h
      · rintro ⟨_, h⟩
        cases h with
        | leaf h => rw [h]
    · simp [onTree, h1, hemp, Empty]
  · have hne : ¬ Empty t := fun h => h1 ((numNodes_one t).2 (.inr h))
    simp only [onTree, h1, if_false, hne, not_false_eq_true, true_and]
    exact mapTree_ok _ t u

theorem onTree_error (impl : Tree (Obj α) → Except PErr (Out α)) (hemp : ∀ k, impl (.node k []) = .error .type)
    (t : Tree (Obj α)) (e : PErr) :
    onTree impl t = .error e ↔ (Empty t ∧ e = .type) ∨ FirstError (fun b => onTree impl (.leaf b)) (leaves t) e := by
  have hF : ∀ l, FirstError (fun b => onTree impl (.leaf b)) l e ↔ FirstError (fun b => impl (.leaf b)) l e := by
    intro l
    unfold FirstError
    constructor
    · rintro ⟨pre, b, post, h, hp, hb⟩
      refine ⟨pre, b, post, h, fun x hx => ?_, (onTree_leaf_error _ _ _).1 hb⟩
      obtain ⟨c, hc⟩ := hp x hx
      simp only at hc
      rw [onTree_leaf] at hc
      cases hi : impl (.leaf x) with
      | ok o => exact ⟨o, hi⟩
      | error e => rw [hi] at hc; cases hc
    · rintro ⟨pre, b, post, h, hp, hb⟩
      refine ⟨pre, b, post, h, fun x hx => ?_, (onTree_leaf_error _ _ _).2 hb⟩
      obtain ⟨c, hc⟩ := hp x hx
      exact ⟨.leaf c, (onTree_on impl x c).2 hc⟩
  by_cases h1 : numNodes t = 1
  · rcases (numNodes_one t).1 h1 with ⟨b, rfl⟩ | ⟨k, rfl⟩
    · rw [onTree_leaf_error]
      constructor
      · intro h
        exact .inr ⟨[], b, [], rfl, by simp, (onTree_leaf_error _ _ _).2 h⟩
      · rintro (⟨⟨k, h⟩, _⟩ | ⟨pre, b', post, h, _, hb⟩)
        · cases h
        · cases pre with
          | nil =>
            simp [leaves] at h
            obtain ⟨rfl, _⟩ := h
            exact (onTree_leaf_error _ _ _).1 hb
          | cons x pre => simp [leaves] at h
    · simp only [onTree, h1, if_true, hemp, leaves, leavesAll]
      constructor
      · intro h; cases h; exact .inl ⟨⟨k, rfl⟩, rfl⟩
      · rintro (⟨_, h⟩ | ⟨pre, b', post, h, _⟩)
        · rw [h]
        · simp at h
  · have hne : ¬ Empty t := fun h => h1 ((numNodes_one t).2 (.inr h))
    rw [hF]
    simp only [onTree, h1, if_false, hne, false_and, false_or]
    exact mapTree_error _ t e

theorem bindLeaf_empty (call : Nat → List Name → Except PErr (Out α)) (names : List Name) (k : Nat) :
    bindLeaf call names (.node k []) = .error .type := rfl

theorem unbindLeaf_empty (call : Nat → List Name → Except PErr (Out α)) (names : List Name) (k : Nat) :
    unbindLeaf call names (.node k []) = .error .type := rfl

/-! ## Theorems -/

/-- **C104.** `bind_dims(t, *names)` and `unbind_dims(t, *names)` of a container give a container of the same structure with
what the operation gives for each object in it. Only an empty container has no result. -/
theorem C104_leafwise (call : Nat → List Name → Except PErr (Out α)) (names : List Name) (t : Tree (Obj α)) (u : Tree (Out α)) :
    (bindDims call names t = .ok u ↔ ¬ Empty t ∧ Rel (On (bindDims call names)) t u) ∧
    (unbindDims call names t = .ok u ↔ ¬ Empty t ∧ Rel (On (unbindDims call names)) t u) :=
  ⟨onTree_ok _ (bindLeaf_empty call names) t u, onTree_ok _ (unbindLeaf_empty call names) t u⟩

/-- **C104.** What the first object raises is raised; otherwise there is only a TypeError for an empty container. -/
theorem C104_raises (call : Nat → List Name → Except PErr (Out α)) (names : List Name) (t : Tree (Obj α)) (e : PErr) :
    (bindDims call names t = .error e ↔
      (Empty t ∧ e = .type) ∨ FirstError (fun b => bindDims call names (.leaf b)) (leaves t) e) ∧
    (unbindDims call names t = .error e ↔
      (Empty t ∧ e = .type) ∨ FirstError (fun b => unbindDims call names (.leaf b)) (leaves t) e) :=
  ⟨onTree_error _ (bindLeaf_empty call names) t e, onTree_error _ (unbindLeaf_empty call names) t e⟩

theorem on_bind (call : Nat → List Name → Except PErr (Out α)) (names : List Name) (v w : Val α) (h : bind v names = .ok w) :
    On (bindDims call names) (.arr v) (.arr w) := by
  unfold bindDims
  rw [onTree_on]
  simp [bindLeaf, h]

theorem on_unbind (call : Nat → List Name → Except PErr (Out α)) (names : List Name) (v w : Val α) (h : unbind v names = .ok w) :
    On (unbindDims call names) (.arr v) (.arr w) := by
  unfold unbindDims
  rw [onTree_on]
  simp [unbindLeaf, h]

/-- The dimensions of the names come first, in their order; for all places `js` the entries are those for the values `js` of the
names. -/
def Positional (names : List Name) (v w : Val α) : Prop :=
  ∃ sz : List Nat, sz.length = names.length ∧
    (∀ (k : Nat) n d, names[k]? = some n → sz[k]? = some d → Occurs v n d) ∧ w.shape = sz ++ v.shape ∧
    (∀ n d, Occurs w n d ↔ Occurs v n d ∧ n ∉ names) ∧
    ∀ env js ix, js.length = names.length → ix.length = v.shape.length →
      den w env (js ++ ix) = den v (upd env names js) ix

/-- The names stand for the first dimensions. -/
def Unbound (names : List Name) (v w : Val α) : Prop :=
  w.shape = v.shape.drop names.length ∧ (∀ n d, Occurs w n d ↔ Occurs v n d ∨ (d, n) ∈ v.shape.zip names) ∧
  ∀ env ix, ix.length = v.shape.length - names.length → den w env ix = den v env (names.map env ++ ix)

/-- Relations of arrays as relations of objects. -/
inductive Arrays (R : Val α → Val α → Prop) : Obj α → Out α → Prop
  | mk {v w} : R v w → Arrays R (.arr v) (.arr w)

/-- **C104.** `bind_dims(t, *names)` of a container of arrays that have all these names. -/
theorem C104_bind_partial (call : Nat → List Name → Except PErr (Out α)) (names : List Name) (hn : names.Nodup) (hne : names ≠ [])
    (t : Tree (Obj α)) (hemp : ¬ Empty t)
    (h : ∀ b ∈ leaves t, ∃ v, b = .arr v ∧ v.Wf ∧ ∀ n ∈ names, ∃ d, Occurs v n d) :
    ∃ u, bindDims call names t = .ok u ∧ Rel (Arrays (Positional names)) t u := by
  have key : ∀ b ∈ leaves t, ∃ c, On (bindDims call names) b c ∧ Arrays (Positional names) b c := by
    intro b hb
    obtain ⟨v, rfl, hv, hc⟩ := h b hb
    obtain ⟨w, sz, h1, _, h3, h4, h5, h6, h7⟩ := Jax.C87_bind hv names hn hne hc
    exact ⟨_, on_bind call names v w h1, .mk ⟨sz, h3, h4, h5, h6, h7⟩⟩
  obtain ⟨u, hu⟩ := rel_of_leaves (fun b c => On (bindDims call names) b c ∧ Arrays (Positional names) b c) t key
  exact ⟨u, (C104_leafwise call names t u).1.2 ⟨hemp, rel_mono hu fun _ _ _ h => h.1⟩, rel_mono hu fun _ _ _ h => h.2⟩

/-- **C104.** `unbind_dims(t, *names)` of a container of arrays that have enough dimensions and none of the names. -/
theorem C104_unbind_partial (call : Nat → List Name → Except PErr (Out α)) (names : List Name) (hn : names.Nodup)
    (t : Tree (Obj α)) (hemp : ¬ Empty t)
    (h : ∀ b ∈ leaves t, ∃ v, b = .arr v ∧ v.Wf ∧ names.length ≤ v.shape.length ∧ ∀ n ∈ names, ∀ d, ¬ Occurs v n d) :
    ∃ u, unbindDims call names t = .ok u ∧ Rel (Arrays (Unbound names)) t u := by
  have key : ∀ b ∈ leaves t, ∃ c, On (unbindDims call names) b c ∧ Arrays (Unbound names) b c := by
    intro b hb
    obtain ⟨v, rfl, hv, hl, hf⟩ := h b hb
    obtain ⟨w, h1, _, h3, h4, h5⟩ := C37_unbind_partial hv names hn hl hf
    exact ⟨_, on_unbind call names v w h1, .mk ⟨h3, h4, h5⟩⟩
  obtain ⟨u, hu⟩ := rel_of_leaves (fun b c => On (unbindDims call names) b c ∧ Arrays (Unbound names) b c) t key
  exact ⟨u, (C104_leafwise call names t u).2.2 ⟨hemp, rel_mono hu fun _ _ _ h => h.1⟩, rel_mono hu fun _ _ _ h => h.2⟩

mutual
/-- A container with the objects changed by a function. -/
def Tree.map (f : β → γ) : Tree β → Tree γ
  | .leaf b => .leaf (f b)
  | .node k ts => .node k (mapAll f ts)

def mapAll (f : β → γ) : List (Tree β) → List (Tree γ)
  | [] => []
  | t :: ts => t.map f :: mapAll f ts
end

mutual
theorem rel_map {R : δ → ε → Prop} (f : β → δ) (g : γ → ε) : ∀ {t : Tree β} {u : Tree γ},
    Rel (fun b c => R (f b) (g c)) t u → Rel R (t.map f) (u.map g)
  | .leaf b, _, .leaf h => by simp only [Tree.map]; exact .leaf h
  | .node k ts, _, .node h => by simp only [Tree.map]; exact .node (rels_map f g h)

theorem rels_map {R : δ → ε → Prop} (f : β → δ) (g : γ → ε) : ∀ {ts : List (Tree β)} {us : List (Tree γ)},
    Rels (fun b c => R (f b) (g c)) ts us → Rels R (mapAll f ts) (mapAll g us)
  | [], _, .nil => by simp only [mapAll]; exact .nil
  | t :: ts, _, .cons h h' => by simp only [mapAll]; exact .cons (rel_map f g h) (rels_map f g h')
end

mutual
theorem rel_choose {P : β → γ → δ → Prop} : ∀ {t : Tree β} {w : Tree γ}, Rel (fun a b => ∃ c, P a b c) t w →
    ∃ u : Tree δ, Rel (fun b c => ∃ a, P a b c) w u ∧ Rel (fun c a => ∃ b, P a b c) u t
  | .leaf b, _, .leaf h => by
    obtain ⟨c, hc⟩ := h
    exact ⟨_, .leaf ⟨_, hc⟩, .leaf ⟨_, hc⟩⟩
  | .node k ts, _, .node h => by
    obtain ⟨us, h1, h2⟩ := rels_choose h
    exact ⟨_, .node h1, .node h2⟩

theorem rels_choose {P : β → γ → δ → Prop} : ∀ {ts : List (Tree β)} {ws : List (Tree γ)}, Rels (fun a b => ∃ c, P a b c) ts ws →
    ∃ us : List (Tree δ), Rels (fun b c => ∃ a, P a b c) ws us ∧ Rels (fun c a => ∃ b, P a b c) us ts
  | [], _, .nil => ⟨[], .nil, .nil⟩
  | t :: ts, _, .cons h h' => by
    obtain ⟨u, h1, h2⟩ := rel_choose h
    obtain ⟨us, h3, h4⟩ := rels_choose h'
    exact ⟨_, .cons h1 h3, .cons h2 h4⟩
end

theorem empty_map (f : β → γ) (t : Tree β) : Empty (t.map f) ↔ Empty t := by
  cases t with
  | leaf b => simp [Tree.map, Empty]
  | node k ts => cases ts <;> simp [Tree.map, mapAll, Empty]

theorem empty_rel {R : β → γ → Prop} {t : Tree β} {u : Tree γ} (h : Rel R t u) : Empty u ↔ Empty t := by
  cases h with
  | leaf h => simp [Empty]
  | node h => cases h <;> simp [Empty]

/-- **C104.** Binding the names again gives the container back. -/
theorem C104_unbind_bind_partial (call : Nat → List Name → Except PErr (Out α)) (names : List Name) (hn : names.Nodup)
    (hne : names ≠ []) (t : Tree (Val α)) (hemp : ¬ Empty t)
    (h : ∀ v ∈ leaves t, v.Wf ∧ names.length ≤ v.shape.length ∧ ∀ n ∈ names, ∀ d, ¬ Occurs v n d) :
    ∃ w u : Tree (Val α), unbindDims call names (t.map .arr) = .ok (w.map .arr) ∧
      bindDims call names (w.map .arr) = .ok (u.map .arr) ∧ Rel Same u t := by
  obtain ⟨w, hw⟩ := rel_of_leaves (fun v w => ∃ u, unbind v names = .ok w ∧ bind w names = .ok u ∧ Same u v) t
    (fun v hv => by
      obtain ⟨h1, h2, h3⟩ := h v hv
      obtain ⟨w, u, h4, h5, h6⟩ := Jax.C87_unbind_bind h1 names hn hne h2 h3
      exact ⟨w, u, h4, h5, h6⟩)
  obtain ⟨u, h1, h2⟩ := rel_choose hw
  refine ⟨w, u, (C104_leafwise call names _ _).2.2 ⟨by rwa [empty_map], rel_map _ _ (rel_mono hw ?_)⟩,
    (C104_leafwise call names _ _).1.2 ⟨by rwa [empty_map, empty_rel hw], rel_map _ _ (rel_mono h1 ?_)⟩, rel_mono h2 ?_⟩
  · rintro v _ w ⟨u, h, _⟩
    exact on_unbind call names v w h
  · rintro w _ u ⟨v, _, h, _⟩
    exact on_bind call names w u h
  · rintro u _ v ⟨w, _, _, h⟩
    exact h

/-- **C104.** Unbinding the names after binding them gives the container back. -/
theorem C104_bind_unbind_partial (call : Nat → List Name → Except PErr (Out α)) (names : List Name) (hn : names.Nodup)
    (hne : names ≠ []) (t : Tree (Val α)) (hemp : ¬ Empty t)
    (h : ∀ v ∈ leaves t, v.Wf ∧ ∀ n ∈ names, ∃ d, Occurs v n d) :
    ∃ w u : Tree (Val α), bindDims call names (t.map .arr) = .ok (w.map .arr) ∧
      unbindDims call names (w.map .arr) = .ok (u.map .arr) ∧ Rel Same u t := by
  obtain ⟨w, hw⟩ := rel_of_leaves (fun v w => ∃ u, bind v names = .ok w ∧ unbind w names = .ok u ∧ Same u v) t
    (fun v hv => by
      obtain ⟨h1, h2⟩ := h v hv
      obtain ⟨w, u, h4, h5, h6⟩ := Jax.C87_bind_unbind h1 names hn hne h2
      exact ⟨w, u, h4, h5, h6⟩)
  obtain ⟨u, h1, h2⟩ := rel_choose hw
  refine ⟨w, u, (C104_leafwise call names _ _).1.2 ⟨by rwa [empty_map], rel_map _ _ (rel_mono hw ?_)⟩,
    (C104_leafwise call names _ _).2.2 ⟨by rwa [empty_map, empty_rel hw], rel_map _ _ (rel_mono h1 ?_)⟩, rel_mono h2 ?_⟩
  · rintro v _ w ⟨u, h, _⟩
    exact on_bind call names v w h
  · rintro w _ u ⟨v, _, h, _⟩
    exact on_unbind call names w u h
  · rintro u _ v ⟨w, _, _, h⟩
    exact h

/-- **C104.** One object. An array without named dimensions is returned by `bind_dims`, an array with names but not all of the given
ones stays a term; numbers are rejected by both operations, and functions are called. -/
theorem C104_object (call : Nat → List Name → Except PErr (Out α)) (n : Name) (names : List Name) :
    (∀ v : Val α, v.Wf → (∀ m d, ¬ Occurs v m d) → On (bindDims call (n :: names)) (.arr v) (.arr v)) ∧
    (∀ v : Val α, v.Wf → (∃ m d, Occurs v m d) → (∃ m ∈ n :: names, ∀ d, ¬ Occurs v m d) →
      On (bindDims call (n :: names)) (.arr v) (.term v (n :: names))) ∧
    bindDims call (n :: names) (.leaf .other) = .error .type ∧ unbindDims call (n :: names) (.leaf .other) = .error .type ∧
    (∀ k o, call k (n :: names) = .ok o →
      On (bindDims call (n :: names)) (.fn k) o ∧ On (unbindDims call (n :: names)) (.fn k) o) ∧
    ∀ k e, call k (n :: names) = .error e →
      bindDims call (n :: names) (.leaf (.fn k)) = .error e ∧ unbindDims call (n :: names) (.leaf (.fn k)) = .error e := by
  refine ⟨fun v hv h => on_bind call _ v v ((Jax.C87_other_names hv _).1 h), fun v hv h h' => ?_, rfl, rfl, fun k o h => ?_,
    fun k e h => ?_⟩
  · unfold bindDims
    rw [onTree_on]
    simp [bindLeaf, (Jax.C87_other_names hv _).2.1 h h']
  · unfold bindDims unbindDims
    rw [onTree_on, onTree_on]
    simp [bindLeaf, unbindLeaf, byDefault, h]
  · unfold bindDims unbindDims
    rw [onTree_leaf_error, onTree_leaf_error]
    simp [bindLeaf, unbindLeaf, byDefault, h]

/-- **C104.** One array, and errors. If `bind_dims` is given a name of the array twice, there is an error and no term; `unbind_dims`
with more names than the array has dimensions is an error as well. -/
theorem C104_array_raises (call : Nat → List Name → Except PErr (Out α)) (names : List Name) (v : Val α) (hv : v.Wf) :
    ((∀ n ∈ names, ∃ d, Occurs v n d) → ¬ names.Nodup → bindDims call names (.leaf (.arr v)) = .error (.named .runtime)) ∧
    (v.shape.length < names.length → unbindDims call names (.leaf (.arr v)) = .error (.named .index)) := by
  unfold bindDims unbindDims
  refine ⟨fun h h' => ?_, fun h => ?_⟩
  · rw [onTree_leaf_error]
    simp [bindLeaf, (Jax.C87_other_names hv _).2.2 h h']
  · rw [onTree_leaf_error]
    simp [unbindLeaf, unbind, Jax.unbind, getitem, h]

example : bindDims (α := List Nat) (fun _ _ => .error .type) ["a", "a"] (.leaf (.arr ⟨⟨[2], id⟩, [some "a"]⟩)) =
    .error (.named .runtime) := rfl

/-- **C104.** Without names only arrays are accepted; `bind_dims` gives an array with the same entries. -/
theorem C104_no_names (call : Nat → List Name → Except PErr (Out α)) :
    (∀ b : Obj α, (∀ v, b ≠ .arr v) → bindDims call [] (.leaf b) = .error .type ∧ unbindDims call [] (.leaf b) = .error .type) ∧
    ∀ v : Val α, v.Wf → ∃ w, On (bindDims call []) (.arr v) (.arr w) ∧ Same w v := by
  refine ⟨fun b h => ?_, fun v hv => ?_⟩
  · cases b with
    | arr v => exact absurd rfl (h v)
    | other => exact ⟨rfl, rfl⟩
    | fn k => exact ⟨rfl, rfl⟩
  · by_cases hd : v.dims.all Option.isNone = true
    · exact ⟨v, on_bind call _ v v (by simp [Jax.bind, hd]), rfl, fun _ _ => Iff.rfl, fun _ _ _ => rfl⟩
    · obtain ⟨s, h1, h2, h3⟩ := hv.sizesOf
      exact ⟨_, on_bind call _ v (Named.partialEval s v) (by simp [Jax.bind, hd, h1]), Jax.partialEval_same hv h2 h3⟩

/-- **C104, negation.** Empty containers (and None) are rejected, though they may be items of containers. -/
theorem C104_empty_fails (call : Nat → List Name → Except PErr (Out α)) (names : List Name) (k k' : Nat) :
    bindDims call names (.node k []) = .error .type ∧ unbindDims call names (.node k []) = .error .type ∧
    bindDims call names (.node k' [.node k []]) = .ok (.node k' [.node k []]) ∧
    unbindDims call names (.node k' [.node k []]) = .ok (.node k' [.node k []]) := ⟨rfl, rfl, rfl, rfl⟩

/-- **C104, negation.** The objects of a container may get different dimensions: after binding `a`, the first array of
`(x[a()], y, z[b()])` has a new dimension, the second one is as before and the third one is a term. -/
theorem C104_missing_fails (call : Nat → List Name → Except PErr (Out Nat)) (y : Val Nat) (hy : y.dims = [none]) :
    let x : Val Nat := ⟨⟨[2], fun ix => ix.getD 0 0⟩, [some "a"]⟩
    let z : Val Nat := ⟨⟨[3], fun ix => ix.getD 0 0⟩, [some "b"]⟩
    ∃ w, bindDims call ["a"] (.node 0 [.leaf (.arr x), .leaf (.arr y), .leaf (.arr z)]) =
      .ok (.node 0 [.leaf (.arr w), .leaf (.arr y), .leaf (.term z ["a"])]) ∧ x.shape = [] ∧ w.shape = [2] := by
  intro x z
  have hb : ∃ w, bind x ["a"] = .ok w ∧ w.shape = [2] := ⟨_, rfl, rfl⟩
  obtain ⟨w, hb, hw⟩ := hb
  refine ⟨w, ?_, rfl, hw⟩
  rw [(C104_leafwise call _ _ _).1]
  refine ⟨by simp [Empty], .node (.cons (.leaf (on_bind _ _ _ _ hb)) (.cons (.leaf (on_bind _ _ _ _ ?_)) (.cons (.leaf ?_) .nil)))⟩
  · simp [Jax.bind, hy]
  · rfl

/-! ## Examples -/

def exX : Val Nat := ⟨⟨[2, 3], fun ix => 10 * ix.getD 0 0 + ix.getD 1 0⟩, [some "a", none]⟩
def exY : Val Nat := ⟨⟨[4, 2], fun ix => 10 * ix.getD 0 0 + ix.getD 1 0⟩, [some "b", some "a"]⟩

theorem exX_wf : exX.Wf := by
  refine ⟨rfl, fun n d e h h' => ?_⟩
  simp [exX, Occurs] at h h'
  omega

theorem exY_wf : exY.Wf := by
  refine ⟨rfl, fun n d e h h' => ?_⟩
  simp [exY, Occurs] at h h'
  rcases h with ⟨rfl, rfl⟩ | ⟨rfl, rfl⟩ <;> simp at h' <;> omega

/-- The hypotheses of `C104_bind_partial` and `C104_bind_unbind_partial` for `{"x": x[a()], "ys": [y[b(), a()], None]}`. -/
example : (∀ b ∈ leaves (.node 1 [.leaf (.arr exX), .node 2 [.leaf (.arr exY), .node 3 []]] : Tree (Obj Nat)),
    ∃ v, b = .arr v ∧ v.Wf ∧ ∀ n ∈ ["a"], ∃ d, Occurs v n d) ∧
    ¬ Empty (.node 1 [.leaf (.arr exX), .node 2 [.leaf (.arr exY), .node 3 []]] : Tree (Obj Nat)) := by
  refine ⟨?_, by simp [Empty]⟩
  intro b hb
  simp [leaves, leavesAll] at hb
  rcases hb with rfl | rfl
  · exact ⟨_, rfl, exX_wf, by simp [exX, Occurs]⟩
  · exact ⟨_, rfl, exY_wf, by simp [exY, Occurs]⟩

/-- The hypotheses of `C104_unbind_partial` and `C104_unbind_bind_partial`. -/
example : (∀ v ∈ leaves (.node 1 [.leaf (plain ⟨[2, 3], id⟩), .node 2 []] : Tree (Val (List Nat))),
    v.Wf ∧ ["a"].length ≤ v.shape.length ∧ ∀ n ∈ ["a"], ∀ d, ¬ Occurs v n d) := by
  intro v hv
  simp [leaves, leavesAll] at hv
  subst hv
  refine ⟨⟨rfl, fun n d e h h' => ?_⟩, by decide, ?_⟩
  · simp [plain, Occurs, List.replicate] at h
  · simp [plain, Occurs, List.replicate]

end Verif.Indexed.Pytree
