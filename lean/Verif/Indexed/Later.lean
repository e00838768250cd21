import Verif.Indexed.Loops

/-!
# C109: tensors that are given later

Programs on tensors with named dimensions in which some tensors are variables `x()` without a value: what the operations of
`handlers/torch.py` (83-261) and `handlers/jax` (`_handlers.py` 82-156, `_terms.py` 434-507) make of them is a term, with
the parts that do not depend on variables computed; and `evaluate` of that term with values for the variables. Operations,
`bind_dims` and `unbind_dims` of values that are known are those of C107.

A term is a program whose operations have been called, so that programs and terms are of one type: running a program and
`evaluate` of a term (`ops/semantics.py` 169-173: the arguments first, from left to right, then the operation) both call the
operations.
-/

namespace Verif.Indexed.Later

open Verif.Indexed.Named hiding partialEval bind unbind
open Verif.Indexed.Pointwise (Arg Fn HasDim Ranked Consistent Closed InRange argShape argAt)
open Verif.Indexed.Loops

variable {α : Type}

/-! ## Model -/

/-- Programs and terms: those of C107, and variables `x()`. -/
inductive Sym (α : Type) where
  | tensor (v : Val α)
  | name (n : Name)
  | var (x : Nat)
  | app (f : Fn α) (ss : List (Sym α))
  | bind (s : Sym α) (names : List Name)
  | unbind (s : Sym α) (names : List Name)

mutual
/-- The tensors in a term. -/
def tensors : Sym α → List (Val α)
  | .tensor v => [v]
  | .name _ => []
  | .var _ => []
  | .app _ ss => tensorsL ss
  | .bind s _ => tensors s
  | .unbind s _ => tensors s
def tensorsL : List (Sym α) → List (Val α)
  | [] => []
  | s :: ss => tensors s ++ tensorsL ss
end

/-- A tensor with other names. -/
def Val.rename (r : Name → Name) (v : Val α) : Val α := ⟨v.arr, v.dims.map (Option.map r)⟩

mutual
/-- A term with other names. -/
def rename (r : Name → Name) : Sym α → Sym α
  | .tensor v => .tensor (Val.rename r v)
  | .name n => .name (r n)
  | .var x => .var x
  | .app f ss => .app f (renames r ss)
  | .bind s names => .bind (rename r s) (names.map r)
  | .unbind s names => .unbind (rename r s) (names.map r)
def renames (r : Name → Name) : List (Sym α) → List (Sym α)
  | [] => []
  | s :: ss => rename r s :: renames r ss
end

/-- The names are replaced by the new names that `defdata` gives to them (C17); the new names, which do not occur, by the names, so
that different names stay different. `defdata` also gives new names to what is bound inside of the term; this is not modelled. -/
def fresh (gen : Nat → Name) : List Name → Nat → Name → Name
  | [], _, m => m
  | n :: ns, k, m => fresh gen ns (k + 1) (if m = n then gen k else if m = gen k then n else m)

/-- The arguments, if all of them are tensors and names. -/
def toArgs : List (Sym α) → Option (List (Arg α))
  | [] => some []
  | .tensor v :: ss => (toArgs ss).map (.tensor v :: ·)
  | .name n :: ss => (toArgs ss).map (.name n :: ·)
  | _ :: _ => none

/-- A call of an operation of the library (`handlers/torch.py` 234-261, `handlers/jax/_handlers.py` 129-153): `sizesof(tm)`
looks at all tensors in the term, also at those below binders. An argument that is a term other than a tensor or a name has an
operation without a size, so that the names with sizes are not all free variables; except for the operation itself, where
`_partial_eval` returns the term as it is (90-97, `_handlers.py` 92-96). In both cases the result is the term. -/
def call (L : Lib α) (f : Fn α) (ss : List (Sym α)) : Except Err (Sym α) :=
  match Pointwise.sizes ((tensorsL ss).map .tensor) with
  | none => .error .value
  | some _ =>
    match toArgs ss with
    | none => .ok (.app f ss)
    | some as =>
      match L.apply f as with
      | .ok w => .ok (.tensor w)
      | .error .notHandled => .ok (.app f ss)
      | .error e => .error e

/-- `bind_dims(s, *names)` as a term: the names are bound (`handlers/torch.py` 140-142, `handlers/jax/_handlers.py` 191-193), and
are replaced by new ones. -/
def bindTerm (gen : Nat → Name) (s : Sym α) (names : List Name) (k : Nat) : Sym α × Nat :=
  (.bind (rename (fresh gen names k) s) (names.map (fresh gen names k)), k + names.length)

/-- `bind_dims(s, *names)`: terms other than tensors raise `NotHandled` (`handlers/torch.py` 158-160, `handlers/jax/_terms.py`
466-472). -/
def bindS (L : Lib α) (gen : Nat → Name) (s : Sym α) (names : List Name) (k : Nat) : Except Err (Sym α × Nat) :=
  match s with
  | .tensor v =>
    match L.bind v names with
    | .ok w => .ok (.tensor w, k)
    | .error .notHandled => .ok (bindTerm gen s names k)
    | .error e => .error e
  | s => .ok (bindTerm gen s names k)

/-- `unbind_dims(s, *names)`: terms other than tensors raise `NotHandled` (`handlers/torch.py` 215-217). In
`handlers/jax/_terms.py` 504-507 this is `jax_getitem`, which raises `NotHandled` and does the same when it is evaluated. The names
are not bound. -/
def unbindS (L : Lib α) (s : Sym α) (names : List Name) : Except Err (Sym α) :=
  match s with
  | .tensor v =>
    match L.unbind v names with
    | .ok w => .ok (.tensor w)
    | .error .notHandled => .ok (.unbind s names)
    | .error e => .error e
  | s => .ok (.unbind s names)

mutual
/-- A run of a program, or `evaluate` of a term, where some variables have values. The number counts new names. -/
def eval (L : Lib α) (gen : Nat → Name) (σ : Nat → Option (Val α)) : Sym α → Nat → Except Err (Sym α × Nat)
  | .tensor v, k => .ok (.tensor v, k)
  | .name n, k => .ok (.name n, k)
  | .var x, k =>
    match σ x with
    | some v => .ok (.tensor v, k)
    | none => .ok (.var x, k)
  | .app f ss, k =>
    match evals L gen σ ss k with
    | .error e => .error e
    | .ok (ss', k') =>
      match call L f ss' with
      | .error e => .error e
      | .ok s => .ok (s, k')
  | .bind s names, k =>
    match eval L gen σ s k with
    | .error e => .error e
    | .ok (s', k') => bindS L gen s' names k'
  | .unbind s names, k =>
    match eval L gen σ s k with
    | .error e => .error e
    | .ok (s', k') =>
      match unbindS L s' names with
      | .error e => .error e
      | .ok s'' => .ok (s'', k')
def evals (L : Lib α) (gen : Nat → Name) (σ : Nat → Option (Val α)) : List (Sym α) → Nat → Except Err (List (Sym α) × Nat)
  | [], k => .ok ([], k)
  | s :: ss, k =>
    match eval L gen σ s k with
    | .error e => .error e
    | .ok (s', k') =>
      match evals L gen σ ss k' with
      | .error e => .error e
      | .ok (ss', k'') => .ok (s' :: ss', k'')
end

/-! ## What is stated -/

mutual
/-- The program with the values of all variables. -/
def known (τ : Nat → Val α) : Sym α → Prog α
  | .tensor v => .tensor v
  | .name n => .name n
  | .var x => .tensor (τ x)
  | .app f ss => .app f (knowns τ ss)
  | .bind s names => .bind (known τ s) names
  | .unbind s names => .unbind (known τ s) names
def knowns (τ : Nat → Val α) : List (Sym α) → List (Prog α)
  | [] => []
  | s :: ss => known τ s :: knowns τ ss
end

/-- The names of the dimensions of a tensor. -/
def dimNames (v : Val α) : List Name := v.dims.filterMap id

mutual
/-- All names in a program. -/
def names : Sym α → List Name
  | .tensor v => dimNames v
  | .name n => [n]
  | .var _ => []
  | .app _ ss => namesL ss
  | .bind s ns => ns ++ names s
  | .unbind s ns => ns ++ names s
def namesL : List (Sym α) → List Name
  | [] => []
  | s :: ss => names s ++ namesL ss
end

mutual
/-- The names that are bound in a program. -/
def bounds : Sym α → List Name
  | .app _ ss => boundsL ss
  | .bind s ns => ns ++ bounds s
  | .unbind s _ => bounds s
  | _ => []
def boundsL : List (Sym α) → List Name
  | [] => []
  | s :: ss => bounds s ++ boundsL ss
end

mutual
/-- The variables in a program. -/
def vars : Sym α → List Nat
  | .var x => [x]
  | .app _ ss => varsL ss
  | .bind s _ => vars s
  | .unbind s _ => vars s
  | _ => []
def varsL : List (Sym α) → List Nat
  | [] => []
  | s :: ss => vars s ++ varsL ss
end

mutual
/-- All operations in the term depend on variables. -/
def Reduced : Sym α → Prop
  | .app f ss => vars (.app f ss) ≠ [] ∧ ReducedL ss
  | .bind s _ => vars s ≠ [] ∧ Reduced s
  | .unbind s _ => vars s ≠ [] ∧ Reduced s
  | _ => True
def ReducedL : List (Sym α) → Prop
  | [] => True
  | s :: ss => Reduced s ∧ ReducedL ss
end

/-- The tensor is in the term, possibly below operations and binders. -/
inductive Inside (v : Val α) : Sym α → Prop
  | tensor : Inside v (.tensor v)
  | app {f ss s} : s ∈ ss → Inside v s → Inside v (.app f ss)
  | bind {s ns} : Inside v s → Inside v (.bind s ns)
  | unbind {s ns} : Inside v s → Inside v (.unbind s ns)

/-- The values of the variables are usable in the program: no new names among their names, and no names that the program binds. -/
structure Apart (gen : Nat → Name) (τ : Nat → Val α) (s : Sym α) (k : Nat) : Prop where
  new : ∀ n ∈ names s, ∀ j, k ≤ j → n ≠ gen j
  newVal : ∀ x, ∀ n ∈ dimNames (τ x), ∀ j, k ≤ j → n ≠ gen j
  bound : ∀ x, ∀ n ∈ dimNames (τ x), n ∉ bounds s

/-! ## Names in programs -/

mutual
/-- A program with other names. -/
def renameP (r : Name → Name) : Prog α → Prog α
  | .tensor v => .tensor (Val.rename r v)
  | .name n => .name (r n)
  | .app f ps => .app f (renamesP r ps)
  | .bind p ns => .bind (renameP r p) (ns.map r)
  | .unbind p ns => .unbind (renameP r p) (ns.map r)
def renamesP (r : Name → Name) : List (Prog α) → List (Prog α)
  | [] => []
  | p :: ps => renameP r p :: renamesP r ps
end

mutual
/-- All names in a program. -/
def namesP : Prog α → List Name
  | .tensor v => dimNames v
  | .name n => [n]
  | .app _ ps => namesPL ps
  | .bind p ns => ns ++ namesP p
  | .unbind p ns => ns ++ namesP p
def namesPL : List (Prog α) → List Name
  | [] => []
  | p :: ps => namesP p ++ namesPL ps
end

theorem visible_rename (r : Name → Name) : ∀ (sh : List Nat) (ds : List (Option Name)),
    visible sh (ds.map (Option.map r)) = visible sh ds
  | [], _ => by simp [visible]
  | _ :: _, [] => by simp [visible]
  | d :: sh, none :: ds => by simp [visible, visible_rename r sh ds]
  | d :: sh, some n :: ds => by simp [visible, visible_rename r sh ds]

theorem coords_rename (r : Name → Name) (env : Name → Nat) : ∀ (ds : List (Option Name)) (ix : List Nat),
    coords (ds.map (Option.map r)) env ix = coords ds (env ∘ r) ix
  | [], ix => rfl
  | none :: ds, ix => by simp [coords, coords_rename r env ds]
  | some n :: ds, ix => by simp [coords, coords_rename r env ds]

theorem occurs_rename {r : Name → Name} {v : Val α} {m : Name} {d : Nat} :
    Occurs (Val.rename r v) m d ↔ ∃ n, r n = m ∧ Occurs v n d := by
  simp only [Occurs, Val.rename]
  rw [List.zip_map_right, List.mem_map]
  constructor
  · rintro ⟨⟨e, o⟩, h1, h2⟩
    simp only [Prod.map, id, Prod.mk.injEq] at h2
    obtain ⟨rfl, h2⟩ := h2
    cases o with
    | none => cases h2
    | some n => exact ⟨n, by simpa using h2, h1⟩
  · rintro ⟨n, rfl, h⟩
    exact ⟨(d, some n), h, rfl⟩

theorem setAll_map {r : Name → Name} (hr : ∀ a b, r a = r b → a = b) (env : Name → Nat) : ∀ (ns : List Name) (js : List Nat) (m : Name),
    setAll env (ns.map r) js (r m) = setAll (env ∘ r) ns js m
  | [], js, m => by simp [setAll]
  | n :: ns, [], m => by simp [setAll]
  | n :: ns, j :: js, m => by
    simp only [List.map_cons, setAll]
    by_cases h : m = n
    · simp [h]
    · rw [if_neg h, if_neg fun e => h (hr _ _ e), setAll_map hr env ns js m]

theorem find_rename {r : Name → Name} (hr : ∀ a b, r a = r b → a = b) (n : Name) : ∀ l : List (Nat × Option Name),
    ((l.map (Prod.map id (Option.map r))).find? fun q => q.2 == some (r n)).map Prod.fst =
      (l.find? fun q => q.2 == some n).map Prod.fst
  | [] => rfl
  | (d, none) :: l => by
    have := find_rename hr n l
    simpa [List.find?_cons] using this
  | (d, some m) :: l => by
    have ih := find_rename hr n l
    by_cases h : m = n
    · subst h; simp
    · have h1 : (some m == some n) = false := by simpa using h
      have h2 : (some (r m) == some (r n)) = false := by simpa using fun e => h (hr _ _ e)
      simp only [List.map_cons, Prod.map, Option.map_some, List.find?_cons, h1, h2, id]
      exact ih

mutual
theorem shape_rename {r : Name → Name} (hr : ∀ a b, r a = r b → a = b) : ∀ p : Prog α, shape (renameP r p) = shape p
  | .tensor v => by simp [renameP, shape, Val.shape, Val.rename, visible_rename]
  | .name _ => rfl
  | .app f ps => by simp [renameP, shape, shapes_rename hr ps]
  | .bind p ns => by
    simp only [renameP, shape, shape_rename hr p, List.map_map]
    congr 1
    apply List.map_congr_left
    intro n _
    simp [size_rename hr p n]
  | .unbind p ns => by simp [renameP, shape, shape_rename hr p]
theorem shapes_rename {r : Name → Name} (hr : ∀ a b, r a = r b → a = b) : ∀ ps : List (Prog α),
    shapes (renamesP r ps) = shapes ps
  | [] => rfl
  | p :: ps => by simp [renamesP, shapes, shape_rename hr p, shapes_rename hr ps]
theorem size_rename {r : Name → Name} (hr : ∀ a b, r a = r b → a = b) : ∀ (p : Prog α) (n : Name),
    size (renameP r p) (r n) = size p n
  | .tensor v, n => by
    simp only [renameP, size, Val.rename]
    rw [List.zip_map_right]
    exact find_rename hr n _
  | .name _, _ => by simp [renameP, size]
  | .app f ps, n => by simp [renameP, size, sizeL_rename hr ps n]
  | .bind p ns, n => by
    have h : r n ∈ ns.map r ↔ n ∈ ns := by
      rw [List.mem_map]
      exact ⟨fun ⟨m, h1, h2⟩ => hr _ _ h2 ▸ h1, fun h => ⟨n, h, rfl⟩⟩
    simp only [renameP, size, h, size_rename hr p n]
  | .unbind p ns, n => by
    have h : r n ∈ ns.map r ↔ n ∈ ns := by
      rw [List.mem_map]
      exact ⟨fun ⟨m, h1, h2⟩ => hr _ _ h2 ▸ h1, fun h => ⟨n, h, rfl⟩⟩
    have hi : (ns.map r).idxOf (r n) = ns.idxOf n := by
      clear h
      induction ns with
      | nil => rfl
      | cons m ns ih =>
        rw [List.map_cons, List.idxOf_cons, List.idxOf_cons, ih]
        by_cases e : m = n
        · simp [e]
        · have e1 : (m == n) = false := by simpa using e
          have e2 : (r m == r n) = false := by simpa using fun h => e (hr _ _ h)
          rw [e1, e2]
    simp only [renameP, size, h, size_rename hr p n, shape_rename hr p, hi]
theorem sizeL_rename {r : Name → Name} (hr : ∀ a b, r a = r b → a = b) : ∀ (ps : List (Prog α)) (n : Name),
    sizeL (renamesP r ps) (r n) = sizeL ps n
  | [], _ => rfl
  | p :: ps, n => by simp only [renamesP, sizeL, size_rename hr p n, sizeL_rename hr ps n]
end

mutual
theorem loop_rename (ofNat : Nat → α) {r : Name → Name} (hr : ∀ a b, r a = r b → a = b) : ∀ (p : Prog α) (env : Name → Nat),
    loop ofNat (renameP r p) env = loop ofNat p (env ∘ r)
  | .tensor v, env => by
    simp only [renameP, loop, Val.shape, Val.rename, visible_rename]
    congr 1
    funext ix
    simp only [den, coords_rename]
  | .name n, env => rfl
  | .app f ps, env => by
    have hs := shape_rename hr (.app f ps)
    simp only [renameP] at hs
    simp only [renameP, loop, hs, loops_rename ofNat hr ps env]
  | .bind p ns, env => by
    have hs := shape_rename hr (.bind p ns)
    simp only [renameP] at hs
    simp only [renameP, loop, hs, List.length_map]
    congr 1
    funext ix
    rw [loop_rename ofNat hr p]
    congr 2
    funext m
    exact setAll_map hr env ns _ m
  | .unbind p ns, env => by
    have hs := shape_rename hr (.unbind p ns)
    simp only [renameP] at hs
    simp only [renameP, loop, hs, List.map_map, loop_rename ofNat hr p]
theorem loops_rename (ofNat : Nat → α) {r : Name → Name} (hr : ∀ a b, r a = r b → a = b) : ∀ (ps : List (Prog α)) (env : Name → Nat),
    loops ofNat (renamesP r ps) env = loops ofNat ps (env ∘ r)
  | [], _ => rfl
  | p :: ps, env => by simp only [renamesP, loops, loop_rename ofNat hr p, loops_rename ofNat hr ps]
end

theorem mem_renamesP {r : Name → Name} {q : Prog α} : ∀ {ps : List (Prog α)}, q ∈ renamesP r ps ↔ ∃ p ∈ ps, renameP r p = q
  | [] => by simp [renamesP]
  | p :: ps => by
    simp only [renamesP, List.mem_cons, mem_renamesP (ps := ps)]
    constructor
    · rintro (rfl | ⟨p', h1, h2⟩)
      · exact ⟨p, Or.inl rfl, rfl⟩
      · exact ⟨p', Or.inr h1, h2⟩
    · rintro ⟨p', rfl | h1, h2⟩
      · exact Or.inl h2.symm
      · exact Or.inr ⟨p', h1, h2⟩

mutual
theorem size_mem : ∀ (p : Prog α) (n : Name) (d : Nat), size p n = some d → n ∈ namesP p
  | .tensor v, n, d, h => by
    simp only [size, Option.map_eq_some_iff] at h
    obtain ⟨⟨e, m⟩, hf, rfl⟩ := h
    have h1 := List.mem_of_find?_eq_some hf
    have h2 := List.find?_some hf
    simp only [beq_iff_eq] at h2
    subst h2
    simp only [namesP, dimNames, List.mem_filterMap, id]
    exact ⟨_, (List.of_mem_zip h1).2, rfl⟩
  | .name _, n, d, h => by simp [size] at h
  | .app f ps, n, d, h => sizeL_mem' ps n d (by simpa [size] using h)
  | .bind p ns, n, d, h => by
    simp only [size] at h
    split at h
    · cases h
    · exact List.mem_append_right _ (size_mem p n d h)
  | .unbind p ns, n, d, h => by
    simp only [size] at h
    split at h
    · rename_i hn; exact List.mem_append_left _ hn
    · exact List.mem_append_right _ (size_mem p n d h)
theorem sizeL_mem' : ∀ (ps : List (Prog α)) (n : Name) (d : Nat), sizeL ps n = some d → n ∈ namesPL ps
  | [], n, d, h => by simp [sizeL] at h
  | p :: ps, n, d, h => by
    simp only [sizeL] at h
    split at h
    · rename_i e he
      exact List.mem_append_left _ (size_mem p n e he)
    · exact List.mem_append_right _ (sizeL_mem' ps n d h)
end

theorem coords_congr {env env' : Name → Nat} : ∀ (ds : List (Option Name)) (ix : List Nat),
    (∀ n ∈ ds.filterMap id, env n = env' n) → coords ds env ix = coords ds env' ix
  | [], _, _ => rfl
  | none :: ds, ix, h => by simp only [coords]; rw [coords_congr ds _ (by simpa using h)]
  | some n :: ds, ix, h => by
    simp only [coords]
    rw [h n (by simp), coords_congr ds _ fun m hm => h m (by
      simp only [List.filterMap_cons, id]
      exact List.mem_cons_of_mem _ hm)]

theorem setAll_congr {env env' : Name → Nat} {m : Name} : ∀ (ns : List Name) (js : List Nat), env m = env' m →
    setAll env ns js m = setAll env' ns js m
  | [], _, h => by simpa [setAll] using h
  | _ :: _, [], h => by simpa [setAll] using h
  | n :: ns, j :: js, h => by simp only [setAll, setAll_congr ns js h]

mutual
theorem loop_congr (ofNat : Nat → α) : ∀ (p : Prog α) (env env' : Name → Nat), (∀ n ∈ namesP p, env n = env' n) →
    loop ofNat p env = loop ofNat p env'
  | .tensor v, env, env', h => by
    simp only [loop]
    congr 1
    funext ix
    simp only [den]
    rw [coords_congr v.dims ix h]
  | .name n, env, env', h => by simp [loop, h n (by simp [namesP])]
  | .app f ps, env, env', h => by simp only [loop, loops_congr ofNat ps env env' h]
  | .bind p ns, env, env', h => by
    simp only [loop]
    congr 1
    funext ix
    rw [loop_congr ofNat p _ _ fun n hn => setAll_congr ns _ (h n (List.mem_append_right _ hn))]
  | .unbind p ns, env, env', h => by
    simp only [loop]
    congr 1
    funext ix
    rw [loop_congr ofNat p env env' fun n hn => h n (List.mem_append_right _ hn),
      List.map_congr_left fun n hn => h n (List.mem_append_left _ hn)]
theorem loops_congr (ofNat : Nat → α) : ∀ (ps : List (Prog α)) (env env' : Name → Nat), (∀ n ∈ namesPL ps, env n = env' n) →
    loops ofNat ps env = loops ofNat ps env'
  | [], _, _, _ => rfl
  | p :: ps, env, env', h => by
    simp only [loops]
    rw [loop_congr ofNat p env env' fun n hn => h n (List.mem_append_left _ hn),
      loops_congr ofNat ps env env' fun n hn => h n (List.mem_append_right _ hn)]
end

theorem wf_rename {r : Name → Name} (hr : ∀ a b, r a = r b → a = b) {v : Val α} (h : v.Wf) : (Val.rename r v).Wf := by
  refine ⟨by simpa [Val.rename] using h.rank, fun n d e hd he => ?_⟩
  obtain ⟨a, rfl, ha⟩ := occurs_rename.1 hd
  obtain ⟨b, hb, hb'⟩ := occurs_rename.1 he
  have := hr _ _ hb
  subst this
  exact h.sizes b d e ha hb'

theorem isTensor_rename (r : Name → Name) (p : Prog α) : IsTensor (renameP r p) ↔ IsTensor p := by
  cases p <;> simp [renameP, IsTensor]

mutual
theorem ok_rename {I : Val α → Prop} {r : Name → Name} (hr : ∀ a b, r a = r b → a = b) (hI : ∀ v, I v → I (Val.rename r v)) :
    ∀ p : Prog α, Ok I p → Ok I (renameP r p)
  | .tensor v, h => ⟨wf_rename hr h.1, hI v h.2⟩
  | .name _, _ => trivial
  | .app f ps, h => by
    obtain ⟨h1, h2, h3, h4, h5⟩ := h
    refine ⟨oks_rename hr hI ps h1, h2, by rw [shapes_rename hr]; exact h3, ?_, ?_⟩
    · intro n d e p hp q hq hd he
      obtain ⟨p', hp', rfl⟩ := mem_renamesP.1 hp
      obtain ⟨q', hq', rfl⟩ := mem_renamesP.1 hq
      obtain ⟨a, rfl⟩ := renamed_name r p' n (size_mem _ _ _ hd)
      rw [size_rename hr] at hd he
      exact h4 a d e p' hp' q' hq' hd he
    · intro n hn
      obtain ⟨p', hp', e⟩ := mem_renamesP.1 hn
      cases p' with
      | name m =>
        simp only [renameP, Prog.name.injEq] at e
        subst e
        obtain ⟨q, hq, d, hd⟩ := h5 m hp'
        exact ⟨renameP r q, mem_renamesP.2 ⟨q, hq, rfl⟩, d, by rw [size_rename hr]; exact hd⟩
      | tensor => simp [renameP] at e
      | app => simp [renameP] at e
      | bind => simp [renameP] at e
      | unbind => simp [renameP] at e
  | .bind p ns, h => by
    obtain ⟨h1, h2, h3, h4, h5⟩ := h
    refine ⟨ok_rename hr hI p h1, (isTensor_rename r p).2 h2, ?_, by simpa using h4, ?_⟩
    · exact List.Pairwise.map _ (fun a b hab e => hab (hr _ _ e)) h3
    · intro n hn
      obtain ⟨m, hm, rfl⟩ := List.mem_map.1 hn
      obtain ⟨d, hd⟩ := h5 m hm
      exact ⟨d, by rw [size_rename hr]; exact hd⟩
  | .unbind p ns, h => by
    obtain ⟨h1, h2, h3, h4, h5⟩ := h
    refine ⟨ok_rename hr hI p h1, (isTensor_rename r p).2 h2, ?_, by rw [shape_rename hr]; simpa using h4, ?_⟩
    · exact List.Pairwise.map _ (fun a b hab e => hab (hr _ _ e)) h3
    · intro n hn d hd
      obtain ⟨m, hm, rfl⟩ := List.mem_map.1 hn
      rw [size_rename hr] at hd
      have := h5 m hm d hd
      have hsz := size_rename hr (.unbind p ns) m
      simp only [renameP, size, List.mem_map_of_mem hm, hm, if_true] at hsz
      rw [hsz, this]
theorem oks_rename {I : Val α → Prop} {r : Name → Name} (hr : ∀ a b, r a = r b → a = b) (hI : ∀ v, I v → I (Val.rename r v)) :
    ∀ ps : List (Prog α), Oks I ps → Oks I (renamesP r ps)
  | [], _ => trivial
  | p :: ps, h => ⟨ok_rename hr hI p h.1, oks_rename hr hI ps h.2⟩
theorem renamed_name (r : Name → Name) : ∀ (p : Prog α) (n : Name), n ∈ namesP (renameP r p) → ∃ m, r m = n
  | .tensor v, n, h => by
    simp only [renameP, namesP, dimNames, Val.rename, List.mem_filterMap, List.mem_map, id] at h
    obtain ⟨o, ⟨o', _, h1⟩, h2⟩ := h
    subst h2
    cases o' with
    | none => cases h1
    | some m => exact ⟨m, by simpa using h1⟩
  | .name m, n, h => ⟨m, by simp only [renameP, namesP, List.mem_singleton] at h; exact h.symm⟩
  | .app f ps, n, h => renamed_names r ps n h
  | .bind p ns, n, h => by
    rcases List.mem_append.1 h with h | h
    · obtain ⟨m, _, h⟩ := List.mem_map.1 h
      exact ⟨m, h⟩
    · exact renamed_name r p n h
  | .unbind p ns, n, h => by
    rcases List.mem_append.1 h with h | h
    · obtain ⟨m, _, h⟩ := List.mem_map.1 h
      exact ⟨m, h⟩
    · exact renamed_name r p n h
theorem renamed_names (r : Name → Name) : ∀ (ps : List (Prog α)) (n : Name), n ∈ namesPL (renamesP r ps) → ∃ m, r m = n
  | [], n, h => by simp [renamesP, namesPL] at h
  | p :: ps, n, h => by
    rcases List.mem_append.1 h with h | h
    · exact renamed_name r p n h
    · exact renamed_names r ps n h
end

/-! ## New names -/

theorem fresh_inj {gen : Nat → Name} : ∀ (ns : List Name) (k : Nat) (a b : Name), fresh gen ns k a = fresh gen ns k b → a = b
  | [], _, _, _, h => h
  | n :: ns, k, a, b, h => by
    have := fresh_inj ns (k + 1) _ _ h
    by_cases h1 : a = n <;> by_cases h2 : a = gen k <;> by_cases h3 : b = n <;> by_cases h4 : b = gen k <;>
      simp only [h1, h2, h3, h4, if_true, if_false] at this <;> grind

theorem fresh_other {gen : Nat → Name} : ∀ (ns : List Name) (k : Nat) (m : Name), m ∉ ns → (∀ j, k ≤ j → m ≠ gen j) →
    fresh gen ns k m = m
  | [], _, _, _, _ => rfl
  | n :: ns, k, m, h, hm => by
    simp only [List.mem_cons, not_or] at h
    simp only [fresh, if_neg h.1, if_neg (hm k (Nat.le_refl k))]
    exact fresh_other ns (k + 1) m h.2 fun j hj => hm j (by omega)

theorem fresh_mem {gen : Nat → Name} (hg : ∀ i j, gen i = gen j → i = j) : ∀ (ns : List Name) (k : Nat),
    (∀ n ∈ ns, ∀ j, k ≤ j → n ≠ gen j) → ∀ n ∈ ns, ∃ j, k ≤ j ∧ j < k + ns.length ∧ fresh gen ns k n = gen j
  | [], _, _, n, h => by simp at h
  | m :: ns, k, hns, n, h => by
    by_cases hn : n = m
    · subst hn
      refine ⟨k, Nat.le_refl k, by simp, ?_⟩
      simp only [fresh, if_true]
      exact fresh_other ns (k + 1) _ (fun hm => hns _ (List.mem_cons_of_mem _ hm) k (Nat.le_refl k) rfl)
        fun j hj e => by have := hg _ _ e; omega
    · have hmem : n ∈ ns := by simpa [hn] using h
      obtain ⟨j, h1, h2, h3⟩ := fresh_mem hg ns (k + 1) (fun a ha j hj => hns a (List.mem_cons_of_mem _ ha) j (by omega)) n hmem
      refine ⟨j, by omega, by simp only [List.length_cons]; omega, ?_⟩
      simp only [fresh, if_neg hn, if_neg (hns n h k (Nat.le_refl k))]
      exact h3

theorem fresh_back {gen : Nat → Name} (hg : ∀ i j, gen i = gen j → i = j) : ∀ (ns : List Name) (k : Nat), ns.Nodup →
    (∀ n ∈ ns, ∀ j, k ≤ j → n ≠ gen j) → ∀ n ∈ ns, ∃ j, k ≤ j ∧ fresh gen ns k (gen j) = n
  | [], _, _, _, n, h => by simp at h
  | m :: ns, k, hnd, hns, n, h => by
    rw [List.nodup_cons] at hnd
    have hm := hns m List.mem_cons_self
    by_cases hn : n = m
    · subst hn
      refine ⟨k, Nat.le_refl k, ?_⟩
      simp only [fresh, if_neg (Ne.symm (hm k (Nat.le_refl k))), if_true]
      exact fresh_other ns (k + 1) _ hnd.1 fun j hj => hm j (by omega)
    · have hmem : n ∈ ns := by simpa [hn] using h
      obtain ⟨j, h1, h2⟩ := fresh_back hg ns (k + 1) hnd.2 (fun a ha j hj => hns a (List.mem_cons_of_mem _ ha) j (by omega)) n hmem
      refine ⟨j, by omega, ?_⟩
      have hjk : gen j ≠ gen k := fun e => by have := hg _ _ e; omega
      simp only [fresh, if_neg (Ne.symm (hm j (by omega))), if_neg hjk]
      exact h2

/-! ## Names in terms -/

theorem val_fixed {r : Name → Name} {v : Val α} (h : ∀ n ∈ dimNames v, r n = n) : Val.rename r v = v := by
  cases v with
  | mk arr dims =>
    simp only [Val.rename, dimNames] at h ⊢
    congr 1
    conv => rhs; rw [← List.map_id dims]
    apply List.map_congr_left
    intro o ho
    cases o with
    | none => rfl
    | some n => simp [h n (List.mem_filterMap.2 ⟨some n, ho, rfl⟩)]

mutual
theorem known_rename {r : Name → Name} {τ : Nat → Val α} (h : ∀ x, ∀ n ∈ dimNames (τ x), r n = n) : ∀ s : Sym α,
    known τ (rename r s) = renameP r (known τ s)
  | .tensor v => by simp [rename, known, renameP]
  | .name _ => by simp [rename, known, renameP]
  | .var x => by simp [rename, known, renameP, val_fixed (h x)]
  | .app f ss => by simp [rename, known, renameP, knowns_rename h ss]
  | .bind s ns => by simp [rename, known, renameP, known_rename h s]
  | .unbind s ns => by simp [rename, known, renameP, known_rename h s]
theorem knowns_rename {r : Name → Name} {τ : Nat → Val α} (h : ∀ x, ∀ n ∈ dimNames (τ x), r n = n) : ∀ ss : List (Sym α),
    knowns τ (renames r ss) = renamesP r (knowns τ ss)
  | [] => rfl
  | s :: ss => by simp [renames, knowns, renamesP, known_rename h s, knowns_rename h ss]
end

mutual
theorem tensors_rename (r : Name → Name) : ∀ s : Sym α, tensors (rename r s) = (tensors s).map (Val.rename r)
  | .tensor v => rfl
  | .name _ => rfl
  | .var x => rfl
  | .app f ss => by simp [rename, tensors, tensorsL_rename r ss]
  | .bind s ns => by simp [rename, tensors, tensors_rename r s]
  | .unbind s ns => by simp [rename, tensors, tensors_rename r s]
theorem tensorsL_rename (r : Name → Name) : ∀ ss : List (Sym α), tensorsL (renames r ss) = (tensorsL ss).map (Val.rename r)
  | [] => rfl
  | s :: ss => by simp [renames, tensorsL, tensors_rename r s, tensorsL_rename r ss]
end

theorem dimNames_rename (r : Name → Name) (v : Val α) : dimNames (Val.rename r v) = (dimNames v).map r := by
  simp only [dimNames, Val.rename]
  induction v.dims with
  | nil => rfl
  | cons o ds ih => cases o <;> simp_all

mutual
theorem names_rename (r : Name → Name) : ∀ s : Sym α, names (rename r s) = (names s).map r
  | .tensor v => by simp [rename, names, dimNames_rename]
  | .name _ => rfl
  | .var x => rfl
  | .app f ss => by simp [rename, names, namesL_rename r ss]
  | .bind s ns => by simp [rename, names, names_rename r s]
  | .unbind s ns => by simp [rename, names, names_rename r s]
theorem namesL_rename (r : Name → Name) : ∀ ss : List (Sym α), namesL (renames r ss) = (namesL ss).map r
  | [] => rfl
  | s :: ss => by simp [renames, namesL, names_rename r s, namesL_rename r ss]
end

mutual
theorem bounds_rename (r : Name → Name) : ∀ s : Sym α, bounds (rename r s) = (bounds s).map r
  | .tensor v => rfl
  | .name _ => rfl
  | .var x => rfl
  | .app f ss => by simp [rename, bounds, boundsL_rename r ss]
  | .bind s ns => by simp [rename, bounds, bounds_rename r s]
  | .unbind s ns => by simp [rename, bounds, bounds_rename r s]
theorem boundsL_rename (r : Name → Name) : ∀ ss : List (Sym α), boundsL (renames r ss) = (boundsL ss).map r
  | [] => rfl
  | s :: ss => by simp [renames, boundsL, bounds_rename r s, boundsL_rename r ss]
end

mutual
theorem names_known (τ : Nat → Val α) : ∀ (s : Sym α) (n : Name), n ∈ namesP (known τ s) →
    n ∈ names s ∨ ∃ x, n ∈ dimNames (τ x)
  | .tensor v, n, h => Or.inl h
  | .name _, n, h => Or.inl h
  | .var x, n, h => Or.inr ⟨x, h⟩
  | .app f ss, n, h => namesL_known τ ss n h
  | .bind s ns, n, h => by
    rcases List.mem_append.1 h with h | h
    · exact Or.inl (List.mem_append_left _ h)
    · exact (names_known τ s n h).imp_left (List.mem_append_right _)
  | .unbind s ns, n, h => by
    rcases List.mem_append.1 h with h | h
    · exact Or.inl (List.mem_append_left _ h)
    · exact (names_known τ s n h).imp_left (List.mem_append_right _)
theorem namesL_known (τ : Nat → Val α) : ∀ (ss : List (Sym α)) (n : Name), n ∈ namesPL (knowns τ ss) →
    n ∈ namesL ss ∨ ∃ x, n ∈ dimNames (τ x)
  | [], n, h => by simp [knowns, namesPL] at h
  | s :: ss, n, h => by
    rcases List.mem_append.1 h with h | h
    · exact (names_known τ s n h).imp_left (List.mem_append_left _)
    · exact (namesL_known τ ss n h).imp_left (List.mem_append_right _)
end

/-! ## Programs that compute the same -/

/-- Programs of the same shape, with the same names of the same sizes, and the same loops. -/
structure Rel (ofNat : Nat → α) (p q : Prog α) : Prop where
  name : ∀ n, p = .name n ↔ q = .name n
  shape : shape p = shape q
  size : ∀ n, size p n = size q n
  loop : ∀ env ix, InSizes q env → InRange (Loops.shape q) ix → (loop ofNat p env).get ix = (loop ofNat q env).get ix

theorem Rel.refl (ofNat : Nat → α) (p : Prog α) : Rel ofNat p p := ⟨fun _ => Iff.rfl, rfl, fun _ => rfl, fun _ _ _ _ => rfl⟩

theorem Rel.inSizes {ofNat : Nat → α} {p q : Prog α} (h : Rel ofNat p q) {env : Name → Nat} : InSizes p env ↔ InSizes q env := by
  simp only [InSizes, h.size]

theorem Rel.trans {ofNat : Nat → α} {p q r : Prog α} (h : Rel ofNat p q) (g : Rel ofNat q r) : Rel ofNat p r :=
  ⟨fun n => (h.name n).trans (g.name n), h.shape.trans g.shape, fun n => (h.size n).trans (g.size n), fun env ix he hi =>
    (h.loop env ix (g.inSizes.2 he) (by rw [g.shape]; exact hi)).trans (g.loop env ix he hi)⟩

theorem isTensor_iff (p : Prog α) : IsTensor p ↔ ∀ n, p ≠ .name n := by
  cases p <;> simp [IsTensor]

theorem Rel.isTensor {ofNat : Nat → α} {p q : Prog α} (h : Rel ofNat p q) : IsTensor p ↔ IsTensor q := by
  simp only [isTensor_iff, ne_eq, h.name]

theorem Rel.of_computes {ofNat : Nat → α} {p : Prog α} {w : Val α} (hp : IsTensor p) (h : Computes ofNat p w) :
    Rel ofNat (.tensor w) p := by
  refine ⟨fun n => ?_, h.shape, fun n => ?_, fun env ix he hi => h.entries env ix he hi⟩
  · exact ⟨(fun e => by cases e), fun e => absurd e ((isTensor_iff p).1 hp n)⟩
  · apply Option.ext
    intro d
    rw [← tensor_size h.wf, h.named]

/-- Lists of such programs. -/
def RelL (ofNat : Nat → α) : List (Prog α) → List (Prog α) → Prop
  | [], [] => True
  | p :: ps, q :: qs => Rel ofNat p q ∧ RelL ofNat ps qs
  | _, _ => False

theorem RelL.shapes {ofNat : Nat → α} : ∀ {ps qs : List (Prog α)}, RelL ofNat ps qs → shapes ps = shapes qs
  | [], [], _ => rfl
  | p :: ps, q :: qs, h => by simp only [Loops.shapes, h.1.shape, h.2.shapes]

theorem RelL.sizeL {ofNat : Nat → α} (n : Name) : ∀ {ps qs : List (Prog α)}, RelL ofNat ps qs → sizeL ps n = sizeL qs n
  | [], [], _ => rfl
  | p :: ps, q :: qs, h => by simp only [Loops.sizeL, h.1.size, h.2.sizeL n]

theorem RelL.left {ofNat : Nat → α} : ∀ {ps qs : List (Prog α)}, RelL ofNat ps qs → ∀ p ∈ ps, ∃ q ∈ qs, Rel ofNat p q
  | [], [], _, p, h => by simp at h
  | p :: ps, q :: qs, h, a, ha => by
    rcases List.mem_cons.1 ha with rfl | ha
    · exact ⟨q, List.mem_cons_self, h.1⟩
    · obtain ⟨b, hb, e⟩ := h.2.left a ha
      exact ⟨b, List.mem_cons_of_mem _ hb, e⟩

theorem RelL.right {ofNat : Nat → α} : ∀ {ps qs : List (Prog α)}, RelL ofNat ps qs → ∀ q ∈ qs, ∃ p ∈ ps, Rel ofNat p q
  | [], [], _, p, h => by simp at h
  | p :: ps, q :: qs, h, a, ha => by
    rcases List.mem_cons.1 ha with rfl | ha
    · exact ⟨p, List.mem_cons_self, h.1⟩
    · obtain ⟨b, hb, e⟩ := h.2.right a ha
      exact ⟨b, List.mem_cons_of_mem _ hb, e⟩

theorem RelL.agrees {ofNat : Nat → α} (env : Name → Nat) : ∀ {ps qs : List (Prog α)}, RelL ofNat ps qs →
    (∀ q ∈ qs, InSizes q env) → Agrees (loops ofNat ps env) (loops ofNat qs env)
  | [], [], _, _ => trivial
  | p :: ps, q :: qs, h, hs => by
    refine ⟨⟨by rw [loop_shape, loop_shape, h.1.shape], fun ix hi => ?_⟩, h.2.agrees env fun q hq => hs q (List.mem_cons_of_mem _ hq)⟩
    rw [loop_shape, h.1.shape] at hi
    exact h.1.loop env ix (hs q List.mem_cons_self) hi

theorem loops_shapes (ofNat : Nat → α) (env : Name → Nat) : ∀ ps : List (Prog α), (loops ofNat ps env).map Arr.shape = shapes ps
  | [] => rfl
  | p :: ps => by simp only [loops, List.map_cons, loop_shape, shapes, loops_shapes ofNat env ps]

theorem size_app {I : Val α → Prop} {f : Fn α} {ps : List (Prog α)} (h : Ok I (.app f ps)) (n : Name) (d : Nat) :
    size (.app f ps) n = some d ↔ ∃ p ∈ ps, size p n = some d := by
  simp only [size]
  constructor
  · exact sizeL_some ps n d
  · rintro ⟨p, hp, hs⟩
    obtain ⟨e, he⟩ := sizeL_mem ps n d p hp hs
    obtain ⟨q, hq, hqs⟩ := sizeL_some ps n e he
    rw [he, h.2.2.2.1 n d e p hp q hq hs hqs]

/-- Arguments that compute the same. -/
theorem rel_app {ofNat : Nat → α} {I : Val α → Prop} {f : Fn α} {ps qs : List (Prog α)} (h : RelL ofNat ps qs) (hps : Oks I ps)
    (hq : Ok I (.app f qs)) : Ok I (.app f ps) ∧ Rel ofNat (.app f ps) (.app f qs) := by
  have hq0 := hq
  obtain ⟨_, hloc, hsh, hcons, hnames⟩ := hq
  have hshape : shape (.app f ps) = shape (.app f qs) := by simp only [shape, h.shapes]
  refine ⟨⟨hps, hloc, by rw [h.shapes]; exact hsh, ?_, ?_⟩, fun n => ⟨(fun e => by cases e), (fun e => by cases e)⟩, hshape,
    fun n => by simp only [size, h.sizeL n], ?_⟩
  · intro n d e p hp p' hp' hd he
    obtain ⟨q, hq, r⟩ := h.left p hp
    obtain ⟨q', hq', r'⟩ := h.left p' hp'
    rw [r.size] at hd
    rw [r'.size] at he
    exact hcons n d e q hq q' hq' hd he
  · intro n hn
    obtain ⟨q, hq, r⟩ := h.left _ hn
    obtain rfl := (r.name n).1 rfl
    obtain ⟨q', hq', d, hd⟩ := hnames n hq
    obtain ⟨p, hp, r⟩ := h.right q' hq'
    exact ⟨p, hp, d, by rw [r.size, hd]⟩
  · intro env ix henv hix
    obtain ⟨out, hout⟩ := Option.isSome_iff_exists.1 hsh
    have ho : shape (.app f qs) = out := by simp [shape, hout]
    rw [ho] at hix
    simp only [loop]
    refine hloc _ _ out ix (h.agrees env fun q hq n d hd => henv n d ((size_app hq0 n d).2 ⟨q, hq, hd⟩)) ?_ hix
    rw [loops_shapes, h.shapes, hout]

theorem setAll_range {p : Prog α} {ns : List Name} {env : Name → Nat} {ix : List Nat}
    (henv : InSizes (.bind p ns) env) (hix : InRange (shape (.bind p ns)) ix) :
    InSizes p (setAll env ns (ix.take ns.length)) ∧ InRange (shape p) (ix.drop ns.length) := by
  simp only [shape] at hix
  obtain ⟨i1, i2⟩ := inRange_split hix
  simp only [List.length_map] at i1 i2
  refine ⟨fun n d hd => ?_, i2⟩
  have l1 := Pointwise.InRange.length i1
  rw [setAll_upd _ _ _ (by simpa using l1)]
  unfold upd
  by_cases hn : n ∈ ns
  · rw [if_pos hn]
    refine inRange_get i1 _ _ ?_
    have hlt := List.idxOf_lt_length_of_mem hn
    simp [hlt, hd]
  · rw [if_neg hn]
    exact henv n d (by simp [size, hn, hd])

theorem rel_bind {ofNat : Nat → α} {I : Val α → Prop} {p q : Prog α} {ns : List Name} (h : Rel ofNat p q) (hp : Ok I p)
    (hq : Ok I (.bind q ns)) : Ok I (.bind p ns) ∧ Rel ofNat (.bind p ns) (.bind q ns) := by
  obtain ⟨_, ht, hnd, hne, hsz⟩ := hq
  have hshape : shape (.bind p ns) = shape (.bind q ns) := by simp only [shape, h.size, h.shape]
  refine ⟨⟨hp, h.isTensor.2 ht, hnd, hne, fun n hn => by rw [h.size]; exact hsz n hn⟩,
    fun n => ⟨(fun e => by cases e), (fun e => by cases e)⟩, hshape, fun n => by simp only [size, h.size], ?_⟩
  intro env ix henv hix
  simp only [loop]
  obtain ⟨h1, h2⟩ := setAll_range henv hix
  exact h.loop _ _ h1 h2

theorem unbind_range {p : Prog α} {ns : List Name} (hnd : ns.Nodup) (hl : ns.length ≤ (shape p).length)
    (hfr : ∀ n ∈ ns, ∀ d, size p n = some d → (shape p)[ns.idxOf n]? = some d) {env : Name → Nat} {ix : List Nat}
    (henv : InSizes (.unbind p ns) env) (hix : InRange (shape (.unbind p ns)) ix) :
    InSizes p env ∧ InRange (shape p) (ns.map env ++ ix) := by
  constructor
  · intro n d hd
    refine henv n d ?_
    simp only [size]
    split
    · rename_i hn; exact hfr n hn d hd
    · exact hd
  · have hspl : shape p = (shape p).take ns.length ++ (shape p).drop ns.length := by simp
    rw [hspl]
    refine Pointwise.inRange_append ?_ hix
    have hvals : ∀ n d, (d, n) ∈ (shape p).zip ns → env n < d := by
      intro n d hm
      have hn := (List.of_mem_zip hm).2
      obtain ⟨k, hk⟩ := List.mem_iff_getElem?.1 hm
      rw [List.getElem?_zip_eq_some] at hk
      have : ns.idxOf n = k := by
        obtain ⟨hk2, e⟩ := List.getElem?_eq_some_iff.1 hk.2
        simp only at e
        rw [← e]
        exact hnd.idxOf_getElem k hk2
      exact henv n d (by simp only [size, hn, if_true, this]; exact hk.1)
    clear hspl hix henv hfr hnd
    generalize shape p = sh at hl hvals
    induction ns generalizing sh with
    | nil => simp [InRange]
    | cons n ns ih =>
      cases sh with
      | nil => simp at hl
      | cons d sh => exact ⟨hvals n d (by simp), ih sh (by simpa using hl) fun m e hm => hvals m e (by simp [hm])⟩

theorem rel_unbind {ofNat : Nat → α} {I : Val α → Prop} {p q : Prog α} {ns : List Name} (h : Rel ofNat p q) (hp : Ok I p)
    (hq : Ok I (.unbind q ns)) : Ok I (.unbind p ns) ∧ Rel ofNat (.unbind p ns) (.unbind q ns) := by
  obtain ⟨_, ht, hnd, hl, hfr⟩ := hq
  have hshape : shape (.unbind p ns) = shape (.unbind q ns) := by simp only [shape, h.shape]
  refine ⟨⟨hp, h.isTensor.2 ht, hnd, by rw [h.shape]; exact hl, fun n hn d hd => by rw [h.shape]; rw [h.size] at hd; exact hfr n hn d hd⟩,
    fun n => ⟨(fun e => by cases e), (fun e => by cases e)⟩, hshape, fun n => by simp only [size, h.size, h.shape], ?_⟩
  intro env ix henv hix
  simp only [loop]
  obtain ⟨h1, h2⟩ := unbind_range hnd hl hfr henv hix
  exact h.loop _ _ h1 h2

/-- Bound names may be replaced by new ones. -/
theorem rel_alpha (ofNat : Nat → α) {gen : Nat → Name} (hg : ∀ i j, gen i = gen j → i = j) {p : Prog α} {ns : List Name} {k : Nat}
    (hnd : ns.Nodup) (hns : ∀ n ∈ ns, ∀ j, k ≤ j → n ≠ gen j) (hp : ∀ n ∈ namesP p, ∀ j, k ≤ j → n ≠ gen j) :
    Rel ofNat (.bind (renameP (fresh gen ns k) p) (ns.map (fresh gen ns k))) (.bind p ns) := by
  have hr := fresh_inj (gen := gen) ns k
  have hsize : ∀ m, size (.bind (renameP (fresh gen ns k) p) (ns.map (fresh gen ns k))) m = size (.bind p ns) m := by
    intro m
    have hnone : ∀ j, k ≤ j → size p (gen j) = none := by
      intro j hj
      cases e : size p (gen j) with
      | none => rfl
      | some d => exact absurd rfl (hp _ (size_mem _ _ _ e) j hj)
    by_cases h1 : m ∈ ns
    · obtain ⟨j, hj, e⟩ := fresh_back hg ns k hnd hns m h1
      have h2 : m ∉ ns.map (fresh gen ns k) := by
        intro h2
        obtain ⟨n, hn, rfl⟩ := List.mem_map.1 h2
        obtain ⟨j, hj, -, e⟩ := fresh_mem hg ns k hns n hn
        exact hns _ h1 j hj e
      simp only [size, h1, h2, if_true, if_false]
      rw [← e, size_rename hr, hnone j hj]
    · by_cases h2 : m ∈ ns.map (fresh gen ns k)
      · obtain ⟨n, hn, e⟩ := List.mem_map.1 h2
        obtain ⟨j, hj, -, e'⟩ := fresh_mem hg ns k hns n hn
        have : m = gen j := e.symm.trans e'
        simp only [size, h1, h2, if_true, if_false]
        rw [this, hnone j hj]
      · simp only [size, h1, h2, if_false]
        by_cases h3 : ∃ j, k ≤ j ∧ m = gen j
        · obtain ⟨j, hj, rfl⟩ := h3
          rw [hnone j hj]
          cases e : size (renameP (fresh gen ns k) p) (gen j) with
          | none => rfl
          | some d =>
            exfalso
            obtain ⟨a, ha⟩ := renamed_name _ p _ (size_mem _ _ _ e)
            rw [← ha, size_rename hr] at e
            have hap := hp a (size_mem _ _ _ e)
            by_cases han : a ∈ ns
            · exact h2 (by rw [← ha]; exact List.mem_map_of_mem han)
            · rw [fresh_other ns k a han hap] at ha
              exact hap j hj ha
        · have hm := fresh_other ns k m h1 fun j hj e => h3 ⟨j, hj, e⟩
          conv => lhs; rw [← hm]
          rw [size_rename hr]
  have hshape : shape (.bind (renameP (fresh gen ns k) p) (ns.map (fresh gen ns k))) = shape (.bind p ns) :=
    shape_rename hr (.bind p ns)
  refine ⟨fun n => ⟨(fun e => by cases e), (fun e => by cases e)⟩, hshape, hsize, ?_⟩
  intro env ix henv hix
  have hl := loop_rename ofNat hr (.bind p ns) env
  simp only [renameP] at hl
  rw [hl]
  simp only [loop]
  congr 1
  apply loop_congr
  intro n hn
  have hix' := hix
  simp only [shape] at hix'
  have l1 : (ix.take ns.length).length = ns.length := by
    have := Pointwise.InRange.length hix'
    simp at this
    simp; omega
  rw [setAll_upd _ _ _ l1, setAll_upd _ _ _ l1]
  unfold upd
  by_cases h1 : n ∈ ns
  · rw [if_pos h1, if_pos h1]
  · rw [if_neg h1, if_neg h1]
    simp only [Function.comp]
    rw [fresh_other ns k n h1 (hp n hn)]

/-! ## Evaluation -/

/-- What is kept by evaluation; `k` and `k'` are the numbers of the new names before and after. -/
structure Sound (ofNat : Nat → α) (I : Val α → Prop) (gen : Nat → Name) (σ : Nat → Option (Val α)) (τ : Nat → Val α)
    (e : Sym α) (k : Nat) (s : Sym α) (k' : Nat) : Prop where
  le : k ≤ k'
  new : ∀ n ∈ names s, ∀ j, k' ≤ j → n ≠ gen j
  bound : ∀ n ∈ bounds s, ∃ j, k ≤ j ∧ j < k' ∧ n = gen j
  ok : Ok I (known τ s)
  rel : Rel ofNat (known τ s) (known τ e)
  dims : ∀ v ∈ tensors s, ∀ n d, Occurs v n d → size (known τ s) n = some d ∨ ∃ j, k ≤ j ∧ j < k' ∧ n = gen j
  same : ∀ v ∈ tensors s, ∀ w ∈ tensors s, ∀ n d d', Occurs v n d → Occurs w n d' → d = d'
  vars : ∀ x ∈ vars s, x ∈ Later.vars e ∧ σ x = none
  reduced : Reduced s

/-- What is kept by evaluation of arguments. -/
structure SoundL (ofNat : Nat → α) (I : Val α → Prop) (gen : Nat → Name) (σ : Nat → Option (Val α)) (τ : Nat → Val α)
    (es : List (Sym α)) (k : Nat) (ss : List (Sym α)) (k' : Nat) : Prop where
  le : k ≤ k'
  new : ∀ n ∈ namesL ss, ∀ j, k' ≤ j → n ≠ gen j
  bound : ∀ n ∈ boundsL ss, ∃ j, k ≤ j ∧ j < k' ∧ n = gen j
  ok : Oks I (knowns τ ss)
  rel : RelL ofNat (knowns τ ss) (knowns τ es)
  dims : ∀ v ∈ tensorsL ss, ∀ n d, Occurs v n d →
    (∃ p ∈ knowns τ ss, size p n = some d) ∨ ∃ j, k ≤ j ∧ j < k' ∧ n = gen j
  same : (∀ n d d', ∀ p ∈ knowns τ es, ∀ q ∈ knowns τ es, size p n = some d → size q n = some d' → d = d') →
    ∀ v ∈ tensorsL ss, ∀ w ∈ tensorsL ss, ∀ n d d', Occurs v n d → Occurs w n d' → d = d'
  vars : ∀ x ∈ varsL ss, x ∈ varsL es ∧ σ x = none
  reduced : ReducedL ss

theorem dimNames_occurs {v : Val α} {n : Name} {d : Nat} (h : Occurs v n d) : n ∈ dimNames v :=
  List.mem_filterMap.2 ⟨some n, (List.of_mem_zip h).2, rfl⟩

theorem occurs_dimNames {v : Val α} (hv : v.Wf) {n : Name} (h : n ∈ dimNames v) : ∃ d, Occurs v n d := by
  obtain ⟨o, ho, e⟩ := List.mem_filterMap.1 h
  simp only [id] at e
  subst e
  exact occurs_of_mem hv ho

/-- A tensor that is computed. -/
theorem sound_tensor {ofNat : Nat → α} {I : Val α → Prop} {gen : Nat → Name} {σ : Nat → Option (Val α)} {τ : Nat → Val α}
    {e : Sym α} {k k' : Nat} {w : Val α} (hle : k ≤ k') (hw : w.Wf) (hI : I w) (hrel : Rel ofNat (.tensor w) (known τ e))
    (hnew : ∀ n, (∃ d, size (known τ e) n = some d) → ∀ j, k ≤ j → n ≠ gen j) :
    Sound ofNat I gen σ τ e k (.tensor w) k' where
  le := hle
  new := by
    intro n hn j hj
    obtain ⟨d, hd⟩ := occurs_dimNames hw hn
    refine hnew n ⟨d, ?_⟩ j (by omega)
    rw [← hrel.size]
    exact (tensor_size hw n d).1 hd
  bound := by simp [bounds]
  ok := ⟨hw, hI⟩
  rel := hrel
  dims := by
    intro v hv n d hd
    simp only [tensors, List.mem_singleton] at hv
    subst hv
    exact Or.inl ((tensor_size hw n d).1 hd)
  same := by
    intro v hv v' hv' n d d' hd hd'
    simp only [tensors, List.mem_singleton] at hv hv'
    subst hv hv'
    exact hw.sizes n d d' hd hd'
  vars := by simp [vars]
  reduced := trivial

theorem runs_args {L : Lib α} {τ : Nat → Val α} : ∀ {ss : List (Sym α)} {as : List (Arg α)}, toArgs ss = some as →
    runs L (knowns τ ss) = .ok as
  | [], as, h => by simp only [toArgs, Option.some.injEq] at h; subst h; rfl
  | s :: ss, as, h => by
    cases s with
    | tensor v =>
      simp only [toArgs, Option.map_eq_some_iff] at h
      obtain ⟨bs, h1, rfl⟩ := h
      simp only [knowns, known, runs, run, runs_args h1]
    | name n =>
      simp only [toArgs, Option.map_eq_some_iff] at h
      obtain ⟨bs, h1, rfl⟩ := h
      simp only [knowns, known, runs, run, runs_args h1]
    | var => simp [toArgs] at h
    | app => simp [toArgs] at h
    | bind => simp [toArgs] at h
    | unbind => simp [toArgs] at h

theorem reduced_value {s : Sym α} (h : Reduced s) (hv : vars s = []) : (∃ w, s = .tensor w) ∨ ∃ n, s = .name n := by
  cases s with
  | tensor w => exact Or.inl ⟨w, rfl⟩
  | name n => exact Or.inr ⟨n, rfl⟩
  | var x => simp [vars] at hv
  | app f ss => exact absurd hv h.1
  | bind s ns => exact absurd hv h.1
  | unbind s ns => exact absurd hv h.1

theorem toArgs_some : ∀ {ss : List (Sym α)}, ReducedL ss → varsL ss = [] → ∃ as, toArgs ss = some as
  | [], _, _ => ⟨[], rfl⟩
  | s :: ss, h, hv => by
    simp only [varsL, List.append_eq_nil_iff] at hv
    obtain ⟨as, e⟩ := toArgs_some h.2 hv.2
    rcases reduced_value h.1 hv.1 with ⟨w, rfl⟩ | ⟨n, rfl⟩
    · exact ⟨.tensor w :: as, by simp only [toArgs, e, Option.map_some]⟩
    · exact ⟨.name n :: as, by simp only [toArgs, e, Option.map_some]⟩

mutual
theorem vars_rename (r : Name → Name) : ∀ s : Sym α, vars (rename r s) = vars s
  | .tensor v => rfl
  | .name _ => rfl
  | .var x => rfl
  | .app f ss => by simp [rename, vars, varsL_rename r ss]
  | .bind s ns => by simp [rename, vars, vars_rename r s]
  | .unbind s ns => by simp [rename, vars, vars_rename r s]
theorem varsL_rename (r : Name → Name) : ∀ ss : List (Sym α), varsL (renames r ss) = varsL ss
  | [] => rfl
  | s :: ss => by simp [renames, varsL, vars_rename r s, varsL_rename r ss]
end

mutual
theorem reduced_rename (r : Name → Name) : ∀ s : Sym α, Reduced (rename r s) ↔ Reduced s
  | .tensor v => Iff.rfl
  | .name _ => Iff.rfl
  | .var x => Iff.rfl
  | .app f ss => by simp [rename, Reduced, vars, varsL_rename r ss, reducedL_rename r ss]
  | .bind s ns => by simp [rename, Reduced, vars_rename r s, reduced_rename r s]
  | .unbind s ns => by simp [rename, Reduced, vars_rename r s, reduced_rename r s]
theorem reducedL_rename (r : Name → Name) : ∀ ss : List (Sym α), ReducedL (renames r ss) ↔ ReducedL ss
  | [] => Iff.rfl
  | s :: ss => by simp [renames, ReducedL, reduced_rename r s, reducedL_rename r ss]
end

theorem not_gen {gen : Nat → Name} {τ : Nat → Val α} {s : Sym α} {k : Nat} (hn : ∀ n ∈ names s, ∀ j, k ≤ j → n ≠ gen j)
    (hv : ∀ x, ∀ n ∈ dimNames (τ x), ∀ j, k ≤ j → n ≠ gen j) : ∀ n ∈ namesP (known τ s), ∀ j, k ≤ j → n ≠ gen j := by
  intro n h
  rcases names_known τ s n h with h | ⟨x, h⟩
  · exact hn n h
  · exact hv x n h

theorem not_genL {gen : Nat → Name} {τ : Nat → Val α} {ss : List (Sym α)} {k : Nat} (hn : ∀ n ∈ namesL ss, ∀ j, k ≤ j → n ≠ gen j)
    (hv : ∀ x, ∀ n ∈ dimNames (τ x), ∀ j, k ≤ j → n ≠ gen j) : ∀ p ∈ knowns τ ss, ∀ n d, size p n = some d →
      ∀ j, k ≤ j → n ≠ gen j := by
  intro p hp n d h
  have : n ∈ namesPL (knowns τ ss) := by
    have h := size_mem p n d h
    clear hn
    generalize knowns τ ss = ps at hp
    induction ps with
    | nil => simp at hp
    | cons q ps ih =>
      rcases List.mem_cons.1 hp with rfl | hp
      · exact List.mem_append_left _ h
      · exact List.mem_append_right _ (ih hp)
  rcases namesL_known τ ss n this with h | ⟨x, h⟩
  · exact hn n h
  · exact hv x n h

/-- A call of an operation. -/
theorem call_sound {ofNat : Nat → α} {L : Lib α} {I : Val α → Prop} (hL : Good ofNat L I) {gen : Nat → Name}
    {σ : Nat → Option (Val α)} {τ : Nat → Val α} {f : Fn α} {es ss : List (Sym α)} {k k' : Nat}
    (hnew : ∀ n ∈ namesL es, ∀ j, k ≤ j → n ≠ gen j) (hval : ∀ x, ∀ n ∈ dimNames (τ x), ∀ j, k ≤ j → n ≠ gen j)
    (hok : Ok I (.app f (knowns τ es))) (h : SoundL ofNat I gen σ τ es k ss k') :
    ∃ s, call L f ss = .ok s ∧ Sound ofNat I gen σ τ (.app f es) k s k' := by
  obtain ⟨hok', hrel⟩ := rel_app h.rel h.ok hok
  have hsame := h.same hok.2.2.2.1
  obtain ⟨sz, hsz, -⟩ := Pointwise.sizes_spec ((tensorsL ss).map Arg.tensor) (by
    rintro n d d' ⟨v, hv, hd⟩ ⟨w, hw, hd'⟩
    simp only [List.mem_map, Arg.tensor.injEq, exists_eq_right] at hv hw
    exact hsame v hv w hw n d d' hd hd')
  have hopen : (toArgs ss = none) → Sound ofNat I gen σ τ (.app f es) k (.app f ss) k' := fun hn =>
    { le := h.le
      new := h.new
      bound := h.bound
      ok := hok'
      rel := hrel
      dims := by
        intro v hv n d hd
        rcases h.dims v hv n d hd with h1 | h1
        · exact Or.inl ((size_app hok' n d).2 h1)
        · exact Or.inr h1
      same := hsame
      vars := h.vars
      reduced := by
        refine ⟨fun hv => ?_, h.reduced⟩
        obtain ⟨as, ha⟩ := toArgs_some h.reduced hv
        rw [hn] at ha
        cases ha }
  cases ha : toArgs ss with
  | none => exact ⟨.app f ss, by simp only [call, hsz, ha], hopen ha⟩
  | some as =>
    obtain ⟨a, hr, hm⟩ := run_meets ofNat L I hL _ hok'
    obtain ⟨w, rfl, hi, hc⟩ := hm.tensor (by trivial)
    have hrun := runs_args (L := L) (τ := τ) ha
    simp only [run, hrun] at hr
    cases hap : L.apply f as with
    | error e => rw [hap] at hr; cases hr
    | ok w' =>
      rw [hap] at hr
      simp only [Except.map, Except.ok.injEq, Arg.tensor.injEq] at hr
      subst hr
      refine ⟨.tensor w', by simp only [call, hsz, ha, hap], sound_tensor h.le hc.wf hi
        ((Rel.of_computes (by trivial) hc).trans hrel) ?_⟩
      rintro n ⟨d, hd⟩ j hj
      simp only [known] at hd
      obtain ⟨p, hp, hd⟩ := (size_app hok n d).1 hd
      exact not_genL hnew hval p hp n d hd j hj

theorem bindTerm_sound {ofNat : Nat → α} {I : Val α → Prop} (hI : ∀ (r : Name → Name), (∀ a b, r a = r b → a = b) → ∀ v, I v →
      I (Val.rename r v)) {gen : Nat → Name} (hg : ∀ i j, gen i = gen j → i = j)
    {σ : Nat → Option (Val α)} {τ : Nat → Val α} {e s : Sym α} {ns : List Name} {k k' : Nat}
    (hnew : ∀ n ∈ ns ++ names e, ∀ j, k ≤ j → n ≠ gen j) (hval : ∀ x, ∀ n ∈ dimNames (τ x), ∀ j, k ≤ j → n ≠ gen j)
    (hb : ∀ x, ∀ n ∈ dimNames (τ x), n ∉ ns) (hok : Ok I (.bind (known τ e) ns)) (h : Sound ofNat I gen σ τ e k s k')
    (hs : ∀ w, s ≠ .tensor w) : Sound ofNat I gen σ τ (.bind e ns) k (bindTerm gen s ns k').1 (bindTerm gen s ns k').2 := by
  obtain ⟨hok', hrel⟩ := rel_bind h.rel h.ok hok
  have hr := fresh_inj (gen := gen) ns k'
  have hns : ∀ n ∈ ns, ∀ j, k' ≤ j → n ≠ gen j := fun n hn j hj => hnew n (List.mem_append_left _ hn) j (by have := h.le; omega)
  have hval' : ∀ x, ∀ n ∈ dimNames (τ x), ∀ j, k' ≤ j → n ≠ gen j := fun x n hn j hj => hval x n hn j (by have := h.le; omega)
  have hfix : ∀ x, ∀ n ∈ dimNames (τ x), fresh gen ns k' n = n := fun x n hn => fresh_other ns k' n (hb x n hn) (hval' x n hn)
  have hk := known_rename hfix s
  have hbk : known τ (.bind (rename (fresh gen ns k') s) (ns.map (fresh gen ns k'))) =
      renameP (fresh gen ns k') (.bind (known τ s) ns) := by simp only [known, renameP, hk]
  have hal := rel_alpha ofNat hg hok'.2.2.1 hns (not_gen h.new hval')
  have hrel' : Rel ofNat (known τ (.bind (rename (fresh gen ns k') s) (ns.map (fresh gen ns k')))) (.bind (known τ s) ns) := by
    rw [hbk]; exact hal
  refine ⟨(by have := h.le; simp only [bindTerm]; omega), ?_, ?_, ?_, hrel'.trans hrel, ?_, ?_, ?_, ?_⟩
  · intro n hn j hj
    simp only [bindTerm] at hj
    have hn' : n ∈ (ns ++ names s).map (fresh gen ns k') := by
      simpa only [bindTerm, names, names_rename, List.map_append] using hn
    obtain ⟨m, hm, rfl⟩ := List.mem_map.1 hn'
    by_cases h1 : m ∈ ns
    · obtain ⟨i, hi1, hi2, hi⟩ := fresh_mem hg ns k' hns m h1
      rw [hi]
      intro e
      have := hg _ _ e
      omega
    · have h2 : m ∈ names s := by simpa [h1] using hm
      rw [fresh_other ns k' m h1 (h.new m h2)]
      exact h.new m h2 j (by omega)
  · intro n hn
    have hn' : n ∈ (ns ++ bounds s).map (fresh gen ns k') := by
      simpa only [bindTerm, bounds, bounds_rename, List.map_append] using hn
    obtain ⟨m, hm, rfl⟩ := List.mem_map.1 hn'
    by_cases h1 : m ∈ ns
    · obtain ⟨i, hi1, hi2, hi⟩ := fresh_mem hg ns k' hns m h1
      exact ⟨i, by have := h.le; omega, hi2, hi⟩
    · have h2 : m ∈ bounds s := by simpa [h1] using hm
      obtain ⟨i, hi1, hi2, rfl⟩ := h.bound m h2
      refine ⟨i, hi1, by simp only [bindTerm]; omega, fresh_other ns k' _ h1 fun j hj e => ?_⟩
      have := hg _ _ e
      omega
  · simp only [bindTerm]
    rw [hbk]
    exact ok_rename hr (hI _ hr) _ hok'
  · intro v hv n d hd
    simp only [bindTerm, tensors, tensors_rename] at hv
    obtain ⟨u, hu, rfl⟩ := List.mem_map.1 hv
    obtain ⟨m, rfl, ho⟩ := occurs_rename.1 hd
    by_cases h1 : m ∈ ns
    · obtain ⟨i, hi1, hi2, hi⟩ := fresh_mem hg ns k' hns m h1
      exact Or.inr ⟨i, by have := h.le; omega, hi2, hi⟩
    · rcases h.dims u hu m d ho with h2 | ⟨i, hi1, hi2, rfl⟩
      · left
        rw [fresh_other ns k' m h1 (not_gen h.new hval' m (size_mem _ _ _ h2))]
        simp only [bindTerm]
        rw [hrel'.size]
        simp only [size, h1, if_false]
        exact h2
      · right
        refine ⟨i, hi1, by simp only [bindTerm]; omega, fresh_other ns k' _ h1 fun j hj e => ?_⟩
        have := hg _ _ e
        omega
  · intro v hv w hw n d d' hd hd'
    simp only [bindTerm, tensors, tensors_rename] at hv hw
    obtain ⟨u, hu, rfl⟩ := List.mem_map.1 hv
    obtain ⟨u', hu', rfl⟩ := List.mem_map.1 hw
    obtain ⟨m, rfl, ho⟩ := occurs_rename.1 hd
    obtain ⟨m', hm', ho'⟩ := occurs_rename.1 hd'
    have := hr _ _ hm'
    subst this
    exact h.same u hu u' hu' _ d d' ho ho'
  · intro x hx
    refine h.vars x ?_
    simpa only [bindTerm, vars, vars_rename] using hx
  · refine ⟨?_, (reduced_rename _ s).2 h.reduced⟩
    rw [vars_rename]
    intro hv
    rcases reduced_value h.reduced hv with ⟨w, rfl⟩ | ⟨n, rfl⟩
    · exact absurd rfl (hs w)
    · exact absurd rfl ((isTensor_iff _).1 hok'.2.1 n)

mutual
theorem eval_sound {ofNat : Nat → α} {L : Lib α} {I : Val α → Prop} (hL : Good ofNat L I)
    (hI : ∀ (r : Name → Name), (∀ a b, r a = r b → a = b) → ∀ v, I v → I (Val.rename r v))
    {gen : Nat → Name} (hg : ∀ i j, gen i = gen j → i = j) {σ : Nat → Option (Val α)} {τ : Nat → Val α}
    (hσ : ∀ x v, σ x = some v → v = τ x) : ∀ (e : Sym α) (k : Nat), (∀ n ∈ names e, ∀ j, k ≤ j → n ≠ gen j) →
      (∀ x, ∀ n ∈ dimNames (τ x), ∀ j, k ≤ j → n ≠ gen j) → (∀ x, ∀ n ∈ dimNames (τ x), n ∉ bounds e) → Ok I (known τ e) →
      ∃ s k', eval L gen σ e k = .ok (s, k') ∧ Sound ofNat I gen σ τ e k s k'
  | .tensor v, k, hnew, hval, _, hok => by
    refine ⟨.tensor v, k, by simp only [eval], sound_tensor (Nat.le_refl k) hok.1 hok.2 (Rel.refl ofNat _) ?_⟩
    rintro n ⟨d, hd⟩ j hj
    exact hnew n (size_mem _ _ _ hd) j hj
  | .name n, k, hnew, hval, _, hok => by
    refine ⟨.name n, k, by simp only [eval], Nat.le_refl k, hnew, ?_, hok, Rel.refl ofNat _, ?_, ?_, ?_, trivial⟩
    · simp [bounds]
    · simp [tensors]
    · simp [tensors]
    · simp [vars]
  | .var x, k, hnew, hval, _, hok => by
    cases hx : σ x with
    | some v =>
      obtain rfl := hσ x v hx
      refine ⟨.tensor (τ x), k, by simp only [eval, hx], sound_tensor (Nat.le_refl k) hok.1 hok.2 (Rel.refl ofNat _) ?_⟩
      rintro n ⟨d, hd⟩ j hj
      exact hval x n (size_mem _ _ _ hd) j hj
    | none =>
      refine ⟨.var x, k, by simp only [eval, hx], Nat.le_refl k, hnew, ?_, hok, Rel.refl ofNat _, ?_, ?_, ?_, trivial⟩
      · simp [bounds]
      · simp [tensors]
      · simp [tensors]
      · intro y hy
        simp only [vars, List.mem_singleton] at hy
        subst hy
        exact ⟨List.mem_singleton.2 rfl, hx⟩
  | .app f es, k, hnew, hval, hb, hok => by
    obtain ⟨ss, k', h1, h2⟩ := evals_sound hL hI hg hσ es k hnew hval hb hok.1
    obtain ⟨s, h3, h4⟩ := call_sound hL hnew hval hok h2
    exact ⟨s, k', by simp only [eval, h1, h3], h4⟩
  | .bind e ns, k, hnew, hval, hb, hok => by
    obtain ⟨s, k', h1, h2⟩ := eval_sound hL hI hg hσ e k (fun n hn => hnew n (List.mem_append_right _ hn)) hval
      (fun x n hn hm => hb x n hn (List.mem_append_right _ hm)) hok.1
    by_cases hs : ∃ v, s = .tensor v
    · obtain ⟨v, rfl⟩ := hs
      obtain ⟨hok', hrel⟩ := rel_bind h2.rel h2.ok hok
      obtain ⟨a, hr, hm⟩ := run_meets ofNat L I hL _ hok'
      obtain ⟨w, rfl, hi, hc⟩ := hm.tensor (by trivial)
      simp only [known, run] at hr
      cases hap : L.bind v ns with
      | error e => rw [hap] at hr; cases hr
      | ok w' =>
        rw [hap] at hr
        simp only [Except.map, Except.ok.injEq, Arg.tensor.injEq] at hr
        subst hr
        refine ⟨.tensor w', k', by simp only [eval, h1, bindS, hap], sound_tensor h2.le hc.wf hi
          ((Rel.of_computes (by trivial) hc).trans hrel) ?_⟩
        rintro n ⟨d, hd⟩ j hj
        exact not_gen hnew hval n (size_mem _ _ _ hd) j hj
    · have hs' : ∀ w, s ≠ .tensor w := fun w e => hs ⟨w, e⟩
      refine ⟨_, _, ?_, bindTerm_sound hI hg hnew hval (fun x n hn hm => hb x n hn (List.mem_append_left _ hm)) hok h2 hs'⟩
      simp only [eval, h1]
      cases s with
      | tensor v => exact absurd rfl (hs' v)
      | _ => rfl
  | .unbind e ns, k, hnew, hval, hb, hok => by
    obtain ⟨s, k', h1, h2⟩ := eval_sound hL hI hg hσ e k (fun n hn => hnew n (List.mem_append_right _ hn)) hval
      (fun x n hn hm => hb x n hn hm) hok.1
    obtain ⟨hok', hrel⟩ := rel_unbind h2.rel h2.ok hok
    by_cases hs : ∃ v, s = .tensor v
    · obtain ⟨v, rfl⟩ := hs
      obtain ⟨a, hr, hm⟩ := run_meets ofNat L I hL _ hok'
      obtain ⟨w, rfl, hi, hc⟩ := hm.tensor (by trivial)
      simp only [known, run] at hr
      cases hap : L.unbind v ns with
      | error e => rw [hap] at hr; cases hr
      | ok w' =>
        rw [hap] at hr
        simp only [Except.map, Except.ok.injEq, Arg.tensor.injEq] at hr
        subst hr
        refine ⟨.tensor w', k', by simp only [eval, h1, unbindS, hap], sound_tensor h2.le hc.wf hi
          ((Rel.of_computes (by trivial) hc).trans hrel) ?_⟩
        rintro n ⟨d, hd⟩ j hj
        exact not_gen hnew hval n (size_mem _ _ _ hd) j hj
    · have hs' : ∀ w, s ≠ .tensor w := fun w e => hs ⟨w, e⟩
      refine ⟨.unbind s ns, k', ?_, h2.le, ?_, h2.bound, hok', hrel, ?_, h2.same, h2.vars, ?_, h2.reduced⟩
      · simp only [eval, h1]
        cases s with
        | tensor v => exact absurd rfl (hs' v)
        | _ => rfl
      · intro n hn j hj
        rcases List.mem_append.1 hn with hn | hn
        · exact hnew n (List.mem_append_left _ hn) j (by have := h2.le; omega)
        · exact h2.new n hn j hj
      · intro v hv n d hd
        rcases h2.dims v hv n d hd with h3 | h3
        · left
          simp only [known, size]
          split
          · rename_i hn; exact hok'.2.2.2.2 n hn d h3
          · exact h3
        · exact Or.inr h3
      · intro hv
        rcases reduced_value h2.reduced hv with ⟨w, rfl⟩ | ⟨n, rfl⟩
        · exact absurd rfl (hs' w)
        · exact absurd rfl ((isTensor_iff _).1 hok'.2.1 n)
theorem evals_sound {ofNat : Nat → α} {L : Lib α} {I : Val α → Prop} (hL : Good ofNat L I)
    (hI : ∀ (r : Name → Name), (∀ a b, r a = r b → a = b) → ∀ v, I v → I (Val.rename r v))
    {gen : Nat → Name} (hg : ∀ i j, gen i = gen j → i = j) {σ : Nat → Option (Val α)} {τ : Nat → Val α}
    (hσ : ∀ x v, σ x = some v → v = τ x) : ∀ (es : List (Sym α)) (k : Nat), (∀ n ∈ namesL es, ∀ j, k ≤ j → n ≠ gen j) →
      (∀ x, ∀ n ∈ dimNames (τ x), ∀ j, k ≤ j → n ≠ gen j) → (∀ x, ∀ n ∈ dimNames (τ x), n ∉ boundsL es) → Oks I (knowns τ es) →
      ∃ ss k', evals L gen σ es k = .ok (ss, k') ∧ SoundL ofNat I gen σ τ es k ss k'
  | [], k, _, _, _, _ => by
    refine ⟨[], k, by simp only [evals], Nat.le_refl k, ?_, ?_, trivial, trivial, ?_, ?_, ?_, trivial⟩
    · simp [namesL]
    · simp [boundsL]
    · simp [tensorsL]
    · simp [tensorsL]
    · simp [varsL]
  | e :: es, k, hnew, hval, hb, hok => by
    have hnew1 : ∀ n ∈ names e, ∀ j, k ≤ j → n ≠ gen j := fun n hn => hnew n (List.mem_append_left _ hn)
    have hnew2 : ∀ n ∈ namesL es, ∀ j, k ≤ j → n ≠ gen j := fun n hn => hnew n (List.mem_append_right _ hn)
    obtain ⟨s, k1, h1, g1⟩ := eval_sound hL hI hg hσ e k hnew1 hval (fun x n hn hm => hb x n hn (List.mem_append_left _ hm)) hok.1
    have hle1 := g1.le
    obtain ⟨ss, k2, h2, g2⟩ := evals_sound hL hI hg hσ es k1 (fun n hn j hj => hnew2 n hn j (by omega))
      (fun x n hn j hj => hval x n hn j (by omega)) (fun x n hn hm => hb x n hn (List.mem_append_right _ hm)) hok.2
    have hle2 := g2.le
    refine ⟨s :: ss, k2, by simp only [evals, h1, h2], by omega, ?_, ?_, ⟨g1.ok, g2.ok⟩, ⟨g1.rel, g2.rel⟩, ?_, ?_, ?_, ⟨g1.reduced, g2.reduced⟩⟩
    · intro n hn j hj
      rcases List.mem_append.1 hn with hn | hn
      · exact g1.new n hn j (by omega)
      · exact g2.new n hn j hj
    · intro n hn
      rcases List.mem_append.1 hn with hn | hn
      · obtain ⟨j, a, b, c⟩ := g1.bound n hn
        exact ⟨j, a, by omega, c⟩
      · obtain ⟨j, a, b, c⟩ := g2.bound n hn
        exact ⟨j, by omega, b, c⟩
    · intro v hv n d hd
      rcases List.mem_append.1 hv with hv | hv
      · rcases g1.dims v hv n d hd with h | ⟨j, a, b, c⟩
        · exact Or.inl ⟨known τ s, List.mem_cons_self, h⟩
        · exact Or.inr ⟨j, a, by omega, c⟩
      · rcases g2.dims v hv n d hd with ⟨p, hp, h⟩ | ⟨j, a, b, c⟩
        · exact Or.inl ⟨p, List.mem_cons_of_mem _ hp, h⟩
        · exact Or.inr ⟨j, by omega, b, c⟩
    · intro hcons
      have hin : ∀ n d d', (∀ p ∈ knowns τ es, size p n = some d → size (known τ e) n = some d' → d = d') :=
        fun n d d' p hp h h' => hcons n d d' p (List.mem_cons_of_mem _ hp) _ List.mem_cons_self h h'
      have cross : ∀ v ∈ tensors s, ∀ w ∈ tensorsL ss, ∀ n d d', Occurs v n d → Occurs w n d' → d = d' := by
        intro v hv w hw n d d' hd hd'
        rcases g1.dims v hv n d hd with h | ⟨j, a, b, c⟩
        · rcases g2.dims w hw n d' hd' with ⟨p, hp, h'⟩ | ⟨j, a, b, c⟩
          · obtain ⟨q, hq, r⟩ := g2.rel.left p hp
            rw [r.size] at h'
            rw [g1.rel.size] at h
            exact (hin n d' d q hq h' h).symm
          · exact absurd c (not_gen g1.new (fun x n hn j hj => hval x n hn j (by omega)) n (size_mem _ _ _ h) j a)
        · rcases g2.dims w hw n d' hd' with ⟨p, hp, h'⟩ | ⟨j', a', b', c'⟩
          · obtain ⟨q, hq, r⟩ := g2.rel.left p hp
            rw [r.size] at h'
            exact absurd c (not_genL hnew2 hval q hq n d' h' j a)
          · rw [c] at c'
            have := hg _ _ c'
            omega
      intro v hv w hw n d d' hd hd'
      rcases List.mem_append.1 hv with hv | hv <;> rcases List.mem_append.1 hw with hw | hw
      · exact g1.same v hv w hw n d d' hd hd'
      · exact cross v hv w hw n d d' hd hd'
      · exact (cross w hw v hv n d' d hd' hd).symm
      · exact g2.same (fun n d d' p hp q hq => hcons n d d' p (List.mem_cons_of_mem _ hp) q (List.mem_cons_of_mem _ hq))
          v hv w hw n d d' hd hd'
    · intro x hx
      rcases List.mem_append.1 hx with hx | hx
      · exact ⟨List.mem_append_left _ (g1.vars x hx).1, (g1.vars x hx).2⟩
      · exact ⟨List.mem_append_right _ (g2.vars x hx).1, (g2.vars x hx).2⟩
end

/-! ## Theorems -/

/-- `evaluate` several times, each time with values for some variables. -/
def stages (L : Lib α) (gen : Nat → Name) : List (Nat → Option (Val α)) → Sym α → Nat → Except Err (Sym α × Nat)
  | [], s, k => .ok (s, k)
  | σ :: σs, s, k =>
    match eval L gen σ s k with
    | .error e => .error e
    | .ok (s', k') => stages L gen σs s' k'

/-- The conditions on names are kept. -/
theorem Sound.apart {ofNat : Nat → α} {I : Val α → Prop} {gen : Nat → Name} {σ : Nat → Option (Val α)} {τ : Nat → Val α}
    {e s : Sym α} {k k' : Nat} (h : Sound ofNat I gen σ τ e k s k') (ha : Apart gen τ e k) : Apart gen τ s k' where
  new := h.new
  newVal := fun x n hn j hj => ha.newVal x n hn j (by have := h.le; omega)
  bound := by
    intro x n hn hb
    obtain ⟨j, hj, -, rfl⟩ := h.bound n hb
    exact ha.newVal x _ hn j hj rfl

theorem stages_sound {ofNat : Nat → α} {L : Lib α} {I : Val α → Prop} (hL : Good ofNat L I)
    (hI : ∀ (r : Name → Name), (∀ a b, r a = r b → a = b) → ∀ v, I v → I (Val.rename r v))
    {gen : Nat → Name} (hg : ∀ i j, gen i = gen j → i = j) {τ : Nat → Val α} : ∀ (σs : List (Nat → Option (Val α))) (e : Sym α) (k : Nat),
      (∀ σ ∈ σs, ∀ x v, σ x = some v → v = τ x) → Apart gen τ e k → Ok I (known τ e) →
      ∃ s k', stages L gen σs e k = .ok (s, k') ∧ Apart gen τ s k' ∧ Ok I (known τ s) ∧ Rel ofNat (known τ s) (known τ e) ∧
        (∀ x ∈ vars s, x ∈ vars e ∧ ∀ σ ∈ σs, σ x = none) ∧ (σs ≠ [] → Reduced s)
  | [], e, k, _, ha, hok => ⟨e, k, rfl, ha, hok, Rel.refl ofNat _, fun x hx => ⟨hx, by simp⟩, fun h => absurd rfl h⟩
  | σ :: σs, e, k, hσ, ha, hok => by
    obtain ⟨s, k', h1, h2⟩ := eval_sound hL hI hg (hσ σ List.mem_cons_self) e k ha.new ha.newVal ha.bound hok
    obtain ⟨t, k'', h3, h4, h5, h6, h7, h8⟩ := stages_sound hL hI hg σs s k' (fun σ' h => hσ σ' (List.mem_cons_of_mem _ h))
      (h2.apart ha) h2.ok
    refine ⟨t, k'', by simp only [stages, h1, h3], h4, h5, h6.trans h2.rel, ?_, ?_⟩
    · intro x hx
      obtain ⟨a, b⟩ := h7 x hx
      obtain ⟨c, d⟩ := h2.vars x a
      refine ⟨c, fun σ' hσ' => ?_⟩
      rcases List.mem_cons.1 hσ' with rfl | hσ'
      · exact d
      · exact b σ' hσ'
    · intro _
      cases σs with
      | nil =>
        simp only [stages, Except.ok.injEq, Prod.mk.injEq] at h3
        rw [← h3.1]
        exact h2.reduced
      | cons => exact h8 (by simp)

theorem once_rename (r : Name → Name) (hr : ∀ a b, r a = r b → a = b) (v : Val α) (h : Once v) : Once (Val.rename r v) := by
  intro m
  simp only [Val.rename]
  by_cases hm : ∃ n, r n = m
  · obtain ⟨n, rfl⟩ := hm
    have : ∀ l : List (Option Name), (l.map (Option.map r)).count (some (r n)) = l.count (some n) := by
      intro l
      induction l with
      | nil => rfl
      | cons o l ih =>
        rw [List.map_cons, List.count_cons, List.count_cons, ih]
        congr 1
        cases o with
        | none => simp
        | some a =>
          by_cases ha : a = n
          · simp [ha]
          · have : r a ≠ r n := fun e => ha (hr _ _ e)
            simp [ha, this]
    rw [this]
    exact h n
  · rw [List.count_eq_zero.2]
    · omega
    · intro hmem
      obtain ⟨o, _, e⟩ := List.mem_map.1 hmem
      cases o with
      | none => cases e
      | some a => exact hm ⟨a, by simpa using e⟩

theorem stages_value {ofNat : Nat → α} {L : Lib α} {I : Val α → Prop} (hL : Good ofNat L I)
    (hI : ∀ (r : Name → Name), (∀ a b, r a = r b → a = b) → ∀ v, I v → I (Val.rename r v))
    {gen : Nat → Name} (hg : ∀ i j, gen i = gen j → i = j) {τ : Nat → Val α} (σs : List (Nat → Option (Val α))) (e : Sym α) (k : Nat)
    (hσ : ∀ σ ∈ σs, ∀ x v, σ x = some v → v = τ x) (ha : Apart gen τ e k) (hok : Ok I (known τ e)) (ht : IsTensor (known τ e))
    (hne : σs ≠ []) (hall : ∀ x ∈ vars e, ∃ σ ∈ σs, σ x ≠ none) :
    ∃ w k', stages L gen σs e k = .ok (.tensor w, k') ∧ Computes ofNat (known τ e) w := by
  obtain ⟨s, k', h1, -, h3, h4, h5, h6⟩ := stages_sound hL hI hg σs e k hσ ha hok
  have hv : vars s = [] := by
    rw [List.eq_nil_iff_forall_not_mem]
    intro x hx
    obtain ⟨a, b⟩ := h5 x hx
    obtain ⟨σ, hσ, hn⟩ := hall x a
    exact hn (b σ hσ)
  rcases reduced_value (h6 hne) hv with ⟨w, rfl⟩ | ⟨n, rfl⟩
  · exact ⟨w, k', h1, h3.1, h4.shape, fun n d => by rw [tensor_size h3.1, ← h4.size]; rfl, fun env ix he hi => h4.loop env ix he hi⟩
  · exact absurd rfl ((isTensor_iff _).1 (h4.isTensor.2 ht) n)

/-- **C109.** A program on torch tensors, some of which are given later, and possibly at different times: if the values are such
that the program can be computed with all of them (C107), then the last `evaluate` gives what the program computes with all
values. -/
theorem C109_torch_partial (ofNat : Nat → α) (gen : Nat → Name) (hg : ∀ i j, gen i = gen j → i = j) (τ : Nat → Val α) (e : Sym α)
    (k : Nat) (ha : Apart gen τ e k) (hok : Ok Once (known τ e)) (ht : IsTensor (known τ e)) (σs : List (Nat → Option (Val α)))
    (hne : σs ≠ []) (hσ : ∀ σ ∈ σs, ∀ x v, σ x = some v → v = τ x) (hall : ∀ x ∈ vars e, ∃ σ ∈ σs, σ x ≠ none) :
    ∃ w k', stages (torch ofNat) gen σs e k = .ok (.tensor w, k') ∧ Computes ofNat (known τ e) w :=
  stages_value (good_torch ofNat) once_rename hg σs e k hσ ha hok ht hne hall

/-- **C109.** The same for jax arrays. -/
theorem C109_jax_partial (ofNat : Nat → α) (gen : Nat → Name) (hg : ∀ i j, gen i = gen j → i = j) (τ : Nat → Val α) (e : Sym α)
    (k : Nat) (ha : Apart gen τ e k) (hok : Ok (fun _ => True) (known τ e)) (ht : IsTensor (known τ e))
    (σs : List (Nat → Option (Val α))) (hne : σs ≠ []) (hσ : ∀ σ ∈ σs, ∀ x v, σ x = some v → v = τ x)
    (hall : ∀ x ∈ vars e, ∃ σ ∈ σs, σ x ≠ none) :
    ∃ w k', stages (jax ofNat) gen σs e k = .ok (.tensor w, k') ∧ Computes ofNat (known τ e) w :=
  stages_value (good_jax ofNat) (fun _ _ _ _ => trivial) hg σs e k hσ ha hok ht hne hall

/-- **C109.** While values are missing, the result is a term whose variables are those of the program without values; whatever
does not depend on them has been computed; and with all values the term has the shape, the names and the loops of the
program. -/
theorem C109_term_partial (ofNat : Nat → α) (gen : Nat → Name) (hg : ∀ i j, gen i = gen j → i = j) (τ : Nat → Val α) (e : Sym α)
    (k : Nat) (ha : Apart gen τ e k) (L : Lib α) (I : Val α → Prop)
    (hL : L = torch ofNat ∧ I = Once ∨ L = jax ofNat ∧ I = fun _ => True) (hok : Ok I (known τ e))
    (σs : List (Nat → Option (Val α))) (hne : σs ≠ []) (hσ : ∀ σ ∈ σs, ∀ x v, σ x = some v → v = τ x) :
    ∃ s k', stages L gen σs e k = .ok (s, k') ∧ (∀ x ∈ vars s, x ∈ vars e ∧ ∀ σ ∈ σs, σ x = none) ∧ Reduced s ∧
      shape (known τ s) = shape (known τ e) ∧ (∀ n, size (known τ s) n = size (known τ e) n) ∧
      ∀ env ix, InSizes (known τ e) env → InRange (shape (known τ e)) ix →
        (loop ofNat (known τ s) env).get ix = (loop ofNat (known τ e) env).get ix := by
  have key : ∃ s k', stages L gen σs e k = .ok (s, k') ∧ Apart gen τ s k' ∧ Ok I (known τ s) ∧
      Rel ofNat (known τ s) (known τ e) ∧ (∀ x ∈ vars s, x ∈ vars e ∧ ∀ σ ∈ σs, σ x = none) ∧ (σs ≠ [] → Reduced s) := by
    rcases hL with ⟨rfl, rfl⟩ | ⟨rfl, rfl⟩
    · exact stages_sound (good_torch ofNat) once_rename hg σs e k hσ ha hok
    · exact stages_sound (good_jax ofNat) (fun _ _ _ _ => trivial) hg σs e k hσ ha hok
  obtain ⟨s, k', h1, -, -, h4, h5, h6⟩ := key
  exact ⟨s, k', h1, h5, h6 hne, h4.shape, h4.size, h4.loop⟩

theorem tensors_mem {v : Val α} {s : Sym α} : ∀ {ss : List (Sym α)}, s ∈ ss → v ∈ tensors s → v ∈ tensorsL ss
  | _ :: _, hs, h => by
    rcases List.mem_cons.1 hs with rfl | hs
    · exact List.mem_append_left _ h
    · exact List.mem_append_right _ (tensors_mem hs h)

theorem inside_tensors {v : Val α} {s : Sym α} (h : Inside v s) : v ∈ tensors s := by
  induction h with
  | tensor => simp [tensors]
  | app hs _ ih => exact tensors_mem hs ih
  | bind _ ih => exact ih
  | unbind _ ih => exact ih

/-- **C109.** A call raises `ValueError` if a name has different sizes in two tensors in its arguments, also if the arguments are
terms whose tensors are below other operations and binders. -/
theorem C109_inconsistent (L : Lib α) (gen : Nat → Name) (σ : Nat → Option (Val α)) (f : Fn α) (es ss : List (Sym α)) (k k' : Nat)
    (he : evals L gen σ es k = .ok (ss, k')) (s t : Sym α) (hs : s ∈ ss) (ht : t ∈ ss) (v w : Val α) (hv : Inside v s)
    (hw : Inside w t) (n : Name) (d d' : Nat) (hd : Occurs v n d) (hd' : Occurs w n d') (hne : d ≠ d') :
    eval L gen σ (.app f es) k = .error .value := by
  have : Pointwise.sizes ((tensorsL ss).map Arg.tensor) = none := by
    cases h : Pointwise.sizes ((tensorsL ss).map Arg.tensor) with
    | none => rfl
    | some sz =>
      exfalso
      have hm : ∀ u ∈ tensorsL ss, ∀ e, Occurs u n e → (e, some n) ∈ Pointwise.entries ((tensorsL ss).map Arg.tensor) :=
        fun u hu e ho => (Pointwise.mem_entries n e _).2 ⟨u, List.mem_map_of_mem hu, ho⟩
      exact hne (sizesLoop_functional _ [] sz (by simp) h n d d' (Or.inr (hm v (tensors_mem hs (inside_tensors hv)) d hd))
        (Or.inr (hm w (tensors_mem ht (inside_tensors hw)) d' hd')))
  simp only [eval, he, call, this]

/-! ## What does not hold -/

/-- Names that are used by no program. -/
def gen (k : Nat) : Name := String.ofList (List.replicate (k + 1) '_')

theorem gen_inj (i j : Nat) (h : gen i = gen j) : i = j := by
  have h := congrArg (fun s => s.toList.length) h
  simpa [gen] using h

/-- `B[i()]` for an array `B` with two entries. -/
def B : Val Nat := ⟨⟨[2], fun ix => 10 * ix.getD 0 0⟩, [some "i"]⟩

/-- **C109 fails** if the value uses a name that the program binds: `bind_dims(x(), i)` with `x()` known to be `B[i()]` is the
array `B`; if `x` is given its value later, then the result is `B[i()]`, as the `i` of the term has been replaced by a new name. -/
theorem C109_capture_fails : ∃ early late k k',
    eval (torch id) gen (fun _ => some B) (.bind (.var 0) ["i"]) 0 = .ok (.tensor early, k) ∧
    stages (torch id) gen [fun _ => none, fun _ => some B] (.bind (.var 0) ["i"]) 0 = .ok (.tensor late, k') ∧
    early.shape = [2] ∧ late.shape = [] :=
  ⟨_, _, _, _, rfl, rfl, rfl, rfl⟩

/-- `a + 1`. -/
def succ : Fn Nat := ⟨fun shs => shs.head?, fun xs ix => ((xs.headD ⟨[], fun _ => 0⟩).get ix) + 1⟩

/-- **C109 fails** for numbers computed from names: `f(i()) + B[i()]` is a term even though nothing in it is unknown, since
`f(i())` has no sizes; so is what `bind_dims` makes of it. -/
theorem C109_number_fails : ∃ s k,
    eval (torch id) gen (fun _ => some B) (.bind (.app Pointwise.add [.app succ [.name "i"], .tensor B]) ["i"]) 0 =
      .ok (.bind s ["_"], k) :=
  ⟨_, _, rfl⟩

/-! ## Examples: the product of matrices that are given later -/

/-- `bind_dims(bind_dims(unbind_dims(x(), i, k) * unbind_dims(y(), k, j), k).sum(0), i, j)`. -/
def product : Sym Nat :=
  .bind (.app sum0 [.bind (.app mul [.unbind (.var 0) ["i", "k"], .unbind (.var 1) ["k", "j"]]) ["k"]]) ["i", "j"]

/-- The values of the variables. -/
def factors (A B : Arr Nat) (x : Nat) : Val Nat := plain (if x = 0 then A else B)

theorem plain_dims (A : Arr α) : dimNames (plain A) = [] := by
  simp only [dimNames, plain]
  rw [List.filterMap_eq_nil_iff]
  intro o ho
  exact (List.mem_replicate.1 ho).2

theorem plain_size (A : Arr α) (n : Name) : size (.tensor (plain A)) n = none := by
  cases h : size (.tensor (plain A)) n with
  | none => rfl
  | some d =>
    have := size_mem _ _ _ h
    simp [namesP, plain_dims] at this

theorem plain_find (A : Arr α) (n : Name) :
    Option.map Prod.fst (List.find? (fun q => q.snd == some n) ((plain A).arr.shape.zip (plain A).dims)) = none :=
  plain_size A n

theorem unbind_size (A : Arr α) (ns : List Name) (n : Name) :
    size (.unbind (.tensor (plain A)) ns) n = if n ∈ ns then (plain A).shape[ns.idxOf n]? else none := by
  simp only [size]
  split
  · rfl
  · exact plain_size A n

theorem product_ok (A B : Arr Nat) (n m l : Nat) (hA : A.shape = [n, m]) (hB : B.shape = [m, l]) :
    Ok Once (known (factors A B) product) := by
  have sA := (plain_wf A).2.1
  have sB := (plain_wf B).2.1
  rw [hA] at sA
  rw [hB] at sB
  refine ⟨⟨⟨⟨⟨⟨⟨⟨(plain_wf _).1, plain_once _⟩, trivial, by decide, ?_, ?_⟩, ⟨⟨(plain_wf _).1, plain_once _⟩, trivial, by decide, ?_, ?_⟩,
    trivial⟩, mul_local, ?_, ?_, ?_⟩, trivial, by decide, by decide, ?_⟩, trivial⟩, sum0_local, ?_, ?_, ?_⟩,
    trivial, by decide, by decide, ?_⟩
  · simp [shape, known, factors, sA]
  · intro x hx d hd
    simp only [known, factors] at hd
    rw [plain_size] at hd
    cases hd
  · simp [shape, known, factors, sB]
  · intro x hx d hd
    simp only [known, factors] at hd
    rw [plain_size] at hd
    cases hd
  · simp [shapes, shape, knowns, known, factors, sA, sB, mul]
  · intro x d e p hp q hq h1 h2
    simp only [knowns, known, factors, List.mem_cons, List.not_mem_nil, or_false] at hp hq
    rcases hp with rfl | rfl <;> rcases hq with rfl | rfl <;>
      simp only [unbind_size, sA, sB, if_true, if_false, Nat.one_ne_zero, List.mem_cons, List.not_mem_nil, or_false] at h1 h2 <;>
      by_cases e1 : x = "i" <;> by_cases e2 : x = "j" <;> by_cases e3 : x = "k" <;> simp_all
  · simp [knowns, known]
  · simp [knowns, known, factors, size, sizeL, shape, sA]
  · simp [shapes, shape, knowns, known, sum0]
  · intro x d e p hp q hq h1 h2
    simp only [knowns, List.mem_cons, List.not_mem_nil, or_false] at hp hq
    subst hp hq
    rw [h1] at h2
    exact Option.some.inj h2
  · simp [knowns, known]
  · simp [knowns, known, factors, size, sizeL, shape, sA, sB, plain_find]

/-- **C109.** The product of matrices, written with names before the matrices are known, is the product of the matrices that are
given later, in any order, for all sizes. -/
theorem C109_matmul (A B : Arr Nat) (n m l : Nat) (hA : A.shape = [n, m]) (hB : B.shape = [m, l])
    (σs : List (Nat → Option (Val Nat))) (hσ : ∀ σ ∈ σs, ∀ x v, σ x = some v → v = factors A B x)
    (h0 : ∃ σ ∈ σs, σ 0 ≠ none) (h1 : ∃ σ ∈ σs, σ 1 ≠ none) :
    ∀ L ∈ [torch id, jax id], ∃ (x : Arr Nat) (k : Nat), stages L gen σs product 0 = .ok (.tensor (plain x), k) ∧
      x.shape = [n, l] ∧
      ∀ r c, r < n → c < l → x.get [r, c] = ((List.range m).map fun k => A.get [r, k] * B.get [k, c]).sum := by
  intro L hL
  have hok := product_ok A B n m l hA hB
  have hap : Apart gen (factors A B) product 0 := by
    refine ⟨fun a ha j _ e => ?_, fun x a ha => ?_, fun x a ha => ?_⟩
    · subst e
      have hne : ∀ c : Char, c ≠ '_' → gen j ≠ String.ofList [c] := by
        intro c hc e
        have := congrArg String.toList e
        simp only [gen, String.toList_ofList, List.replicate_succ, List.cons.injEq] at this
        exact hc this.1.symm
      have hi := hne 'i' (by decide)
      have hj := hne 'j' (by decide)
      have hk := hne 'k' (by decide)
      have ei : String.ofList ['i'] = "i" := by decide
      have ej : String.ofList ['j'] = "j" := by decide
      have ek : String.ofList ['k'] = "k" := by decide
      rw [ei] at hi
      rw [ej] at hj
      rw [ek] at hk
      simp [product, names, namesL, hi, hj, hk] at ha
    · simp [factors, plain_dims] at ha
    · simp [factors, plain_dims] at ha
  have hne : σs ≠ [] := by
    rintro rfl
    simp at h0
  have hall : ∀ x ∈ vars product, ∃ σ ∈ σs, σ x ≠ none := by
    intro x hx
    simp only [product, vars, varsL, List.append_nil, List.mem_append, List.mem_singleton] at hx
    rcases hx with rfl | rfl
    · exact h0
    · exact h1
  have : ∃ w k', stages L gen σs product 0 = .ok (.tensor w, k') ∧ Computes id (known (factors A B) product) w := by
    simp only [List.mem_cons, List.not_mem_nil, or_false] at hL
    rcases hL with rfl | rfl
    · exact C109_torch_partial id gen gen_inj _ product 0 hap hok trivial σs hne hσ hall
    · exact C109_jax_partial id gen gen_inj _ product 0 hap (Ok.weaken (fun _ _ => trivial) hok) trivial σs hne hσ hall
  obtain ⟨w, k', g1, g2⟩ := this
  have sA := (plain_wf A).2.1
  have sB := (plain_wf B).2.1
  rw [hA] at sA
  rw [hB] at sB
  have hsh : shape (known (factors A B) product) = [n, l] := by
    simp [product, known, knowns, factors, shape, shapes, size, sizeL, mul, sum0, sA, sB, plain_find]
  obtain ⟨g3, g4, g5⟩ := C107_closed id _ w g2 (fun x => by
    simp only [product, known, knowns, factors, size, sizeL, shape, sA, sB, if_true, if_false, Nat.one_ne_zero]
    by_cases e1 : x = "i" <;> by_cases e2 : x = "j" <;> by_cases e3 : x = "k" <;> simp_all [plain_find]) fun _ => 0
  refine ⟨w.arr, k', by rw [g1]; exact congrArg (fun v => Except.ok (Sym.tensor v, k')) g3, by rw [g4, hsh], fun r c hr hc => ?_⟩
  rw [g5 [r, c] (by rw [hsh]; exact ⟨hr, hc, trivial⟩)]
  simp [product, known, knowns, factors, loop, loops, mul, sum0, setAll, shape, shapes, size, sizeL, sA, sB]
  congr 1
  apply List.map_congr_left
  intro k hk
  rw [plain_den _ _ _ (by simp [hA]), plain_den _ _ _ (by simp [hB])]

/-- Without values, the result is a term; the names that are bound are new ones. -/
example : ∃ t, eval (torch id) gen (fun _ => none) product 0 = .ok (.bind t ["__", "___"], 3) ∧ vars t = [0, 1] :=
  ⟨_, rfl, rfl⟩

/-- What does not depend on variables is computed: in `(B[i()] + B[i()]) * x()` the sum is a tensor. -/
example : ∃ w, eval (torch id) gen (fun _ => none) (.app mul [.app Pointwise.add [.tensor B, .tensor B], .var 0]) 0 =
    .ok (.app mul [.tensor w, .var 0], 0) ∧ w.arr.get [1] = 20 := ⟨_, rfl, rfl⟩

end Verif.Indexed.Later
