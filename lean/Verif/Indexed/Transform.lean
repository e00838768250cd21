import Verif.Indexed.Dist

/-!
# C76: transformations of functions whose results have named dimensions

Model of `_indexed_func_wrapper` (`handlers/torch.py` 593-633, `handlers/jax/_handlers.py` 235-270), `jit`
(`_handlers.py` 229-232) and of `grad`, `jacfwd`, `jvp`, `vjp` and `vmap` (`handlers/torch.py` 636-722).

Simplifications: functions have one argument. Arguments of `jit`, `vmap` and `jacfwd` have no names (with names, the operation
is applied for each value of them, C70). `jax.jit`, `torch.func.vmap`, `jacfwd` and `vjp` are given by their meaning for
functions of arrays: `jit` keeps one compiled function for each signature, here the shape, and derivatives are arbitrary.
Dtypes and the arguments of transformations other than `out_dims` and `argnums` are left out.
-/

namespace Verif.Indexed.Transform

open Verif.Indexed.Named Verif.Indexed.Shim Verif.Indexed.Dist

variable {α β : Type}

/-! ## The wrapper -/

/-- A result that consists of several values: lists and tuples. -/
inductive Tree (β : Type) where
  | leaf (b : β)
  | node (ts : List (Tree β))

/-- Errors of `tree_map` and of attribute access. -/
inductive TErr where
  | named (e : Err)
  /-- ValueError: structures differ. -/
  | structure_
  /-- AttributeError: a list has no `indexes`. -/
  | attribute

/-- `list(sizesof(t).keys())`. -/
def namesOf (v : Val α) : List Name := (v.sizes.getD []).map Prod.fst

/-- `deindex_tensor(t, i)` (609-612). -/
def deindexTensor (v : Val α) : Except Err (Val α) := bind v (namesOf v)

/-- `torch_getitem(t, index_expr(i))` (621-622, 626 and 629). -/
def reindexTensor (start : Nat) (t : Val α) : Tree (List Name) → Except TErr (Val α)
  | .leaf names =>
    match reindex names start t with
    | .error e => .error (.named e)
    | .ok w => .ok w
  | .node _ => .error .attribute

mutual

/-- `tree_map(lambda t, i: …, ret, indexes)` (624-629): the structure of the first tree decides. -/
def reindexTree (start : Nat) : Tree (Val α) → Tree (List Name) → Except TErr (Tree (Val α))
  | .leaf t, i =>
    match reindexTensor start t i with
    | .error e => .error e
    | .ok w => .ok (.leaf w)
  | .node _, .leaf _ => .error .structure_
  | .node ts, .node is =>
    match reindexTrees start ts is with
    | .error e => .error e
    | .ok ws => .ok (.node ws)

def reindexTrees (start : Nat) : List (Tree (Val α)) → List (Tree (List Name)) → Except TErr (List (Tree (Val α)))
  | [], [] => .ok []
  | t :: ts, i :: is =>
    match reindexTree start t i with
    | .error e => .error e
    | .ok w =>
      match reindexTrees start ts is with
      | .error e => .error e
      | .ok ws => .ok (w :: ws)
  | _, _ => .error .structure_

end

mutual

/-- `indexes` (615). -/
def namesTree : Tree (Val α) → Tree (List Name)
  | .leaf v => .leaf (namesOf v)
  | .node ts => .node (namesTrees ts)

def namesTrees : List (Tree (Val α)) → List (Tree (List Name))
  | [] => []
  | t :: ts => namesTree t :: namesTrees ts

end

mutual

/-- `tensors` (616). -/
def deindexTree : Tree (Val α) → Except Err (Tree (Val α))
  | .leaf v =>
    match deindexTensor v with
    | .error e => .error e
    | .ok w => .ok (.leaf w)
  | .node ts =>
    match deindexTrees ts with
    | .error e => .error e
    | .ok ws => .ok (.node ws)

def deindexTrees : List (Tree (Val α)) → Except Err (List (Tree (Val α)))
  | [] => .ok []
  | t :: ts =>
    match deindexTree t with
    | .error e => .error e
    | .ok w =>
      match deindexTrees ts with
      | .error e => .error e
      | .ok ws => .ok (w :: ws)

end

/-- The deindexed function on an array. The functions considered are those where binding does not fail. -/
def bound (f : Arr α → Val β) (x : Arr α) : Arr β := asArr ((deindexTensor (f x)).toOption.getD (f x))

/-! ## Transformations -/

/-- `x[k]`. -/
def slice (x : Arr α) (k : Nat) : Arr α := ⟨x.shape.tail, fun ix => x.get (k :: ix)⟩

/-- `torch.func.vmap(g, out_dims=d)(x)`. -/
def vmapArr (d : Nat) (g : Arr α → Arr β) (x : Arr α) : Arr β :=
  let out := (g (slice x 0)).shape
  ⟨out.take d ++ x.shape.headD 0 :: out.drop d, fun ix => (g (slice x (ix.getD d 0))).get (ix.take d ++ ix.drop (d + 1))⟩

/-- `vmap(f, out_dims=d)(x)` (715-722): the names are those of the call with slices of `x`. -/
def vmapNamed (d : Nat) (f : Arr α → Val β) (x : Arr α) : Except Err (Val β) :=
  match deindexTensor (f (slice x 0)) with
  | .error e => .error e
  | .ok _ => reindex (namesOf (f (slice x 0))) 1 (plain (vmapArr d (bound f) x))

/-- `torch.func.jacfwd(g)(x)`: `deriv φ x j` is the derivative of `φ` with respect to the entry `j` of the argument at `x`. -/
def jacArr (deriv : (Arr α → β) → Arr α → List Nat → β) (g : Arr α → Arr β) (x : Arr α) : Arr β :=
  ⟨(g x).shape ++ x.shape, fun ix => deriv (fun y => (g y).get (ix.take (g x).shape.length)) x (ix.drop (g x).shape.length)⟩

/-- `jacfwd(f)(x)` (648-652) for a function with one result. -/
def jacNamed (deriv : (Arr α → β) → Arr α → List Nat → β) (f : Arr α → Val β) (x : Arr α) : Except Err (Val β) :=
  match deindexTensor (f x) with
  | .error e => .error e
  | .ok _ => reindex (namesOf (f x)) 0 (plain (jacArr deriv (bound f) x))

/-- `jvp` (669-676): `tree_map(reindex, ret)`, where `reindex` gets single values. -/
def jvpNamed (ret : List (Val β)) (indexes : Tree (List Name)) : Except TErr (List (Val β)) :=
  ret.mapM fun t => reindexTensor 0 t indexes

/-- State of a function made by `jit`: signatures with a compiled function, and `indexes`. -/
structure Jit where
  cache : List (List Nat)
  indexes : List Name

/-- A call of a function made by `jit`: the function itself is called for new signatures only. -/
def jitCall (f : Arr α → Val β) (s : Jit) (x : Arr α) : Except Err (Val β) × Jit :=
  let s := if s.cache.contains x.shape then s else ⟨x.shape :: s.cache, namesOf (f x)⟩
  (reindex s.indexes 0 (plain (bound f x)), s)

/-- The state after calls. -/
def jitRun (f : Arr α → Val β) (s : Jit) (xs : List (Arr α)) : Jit := xs.foldl (fun s x => (jitCall f s x).2) s

/-- `jit(f)`. -/
def jitInit : Jit := ⟨[], []⟩

/-- The function given to `torch.func.vjp` (695-700), for one primal with the given names. -/
def vjpInner (f : Val α → Val β) (names : List Name) (p : Arr α) : Val β :=
  (deindexTensor (f ((reindex names 0 (plain p)).toOption.getD (plain p)))).toOption.getD (f (plain p))

/-- `vjp(f, x)[1](t)` (680-712): `grad` is what `torch.func.vjp` gives for a positional function, argument and cotangent. -/
def vjpNamed (grad : (Arr α → Arr β) → Arr α → Arr β → Arr α) (f : Val α → Val β) (x : Val α) (t : Val β) :
    Except Err (Val α) :=
  match deindexTensor x with
  | .error e => .error e
  | .ok p =>
    match deindexTensor t with
    | .error e => .error e
    | .ok c => reindex (namesOf x) 0 (plain (grad (fun p => asArr (vjpInner f (namesOf x) p)) (asArr p) (asArr c)))

/-! ## Specification -/

/-- For arguments of the given shape, results have the same names, in the same order, and the same shape. -/
structure Steady (f : Arr α → Val β) (shape : List Nat) (sizes : List (Name × Nat)) (out : List Nat) : Prop where
  wf : ∀ x, x.shape = shape → (f x).Wf
  once : ∀ x, x.shape = shape → Once (f x)
  sizes : ∀ x, x.shape = shape → (f x).sizes = some sizes
  out : ∀ x, x.shape = shape → (f x).shape = out

mutual

/-- Results of the same structure whose values are related. -/
def Related (R : Val α → Val α → Prop) : Tree (Val α) → Tree (Val α) → Prop
  | .leaf v, .leaf w => R v w
  | .node ts, .node us => Relateds R ts us
  | _, _ => False

def Relateds (R : Val α → Val α → Prop) : List (Tree (Val α)) → List (Tree (Val α)) → Prop
  | [], [] => True
  | t :: ts, u :: us => Related R t u ∧ Relateds R ts us
  | _, _ => False

end

/-! ## Binding all names -/

theorem sizes_nodup {v : Val α} (hv : v.Wf) {s : List (Name × Nat)} (hs : v.sizes = some s) :
    (s.map Prod.fst).Nodup ∧ ∀ n d, (n, d) ∈ s ↔ Occurs v n d := by
  obtain ⟨s', h1, h2, h3⟩ := hv.sizesOf
  rw [h1] at hs
  cases hs
  exact ⟨h2, h3⟩

theorem deindex_spec {v : Val α} (hv : v.Wf) (ho : Once v) {s : List (Name × Nat)} (hs : v.sizes = some s) :
    ∃ w, deindexTensor v = .ok w ∧ w.Wf ∧ w.shape = s.map Prod.snd ++ v.shape ∧ (∀ n d, ¬ Occurs w n d) ∧
      ∀ env env' ix, den w env' ((s.map Prod.fst).map env ++ ix) = den v env ix := by
  obtain ⟨h2, h3⟩ := sizes_nodup hv hs
  have hmem : ∀ n, some n ∈ v.dims → n ∈ s.map Prod.fst := by
    intro n hn
    obtain ⟨d, hd⟩ := (occurs_iff_mem hv n).2 hn
    exact List.mem_map.2 ⟨_, (h3 n d).2 hd, rfl⟩
  obtain ⟨w, sz, b1, b2, b3, b4, b5, b6, b7⟩ := C37_bind_partial hv (s.map Prod.fst) h2 (by
    intro n hn
    obtain ⟨⟨m, d⟩, hm, rfl⟩ := List.mem_map.1 hn
    exact count_one hv ho ((h3 _ _).1 hm))
  have hclosed : ∀ n d, ¬ Occurs w n d := by
    intro n d h
    have := (b6 n d).1 h
    exact this.2 (List.mem_map.2 ⟨_, (h3 n d).2 this.1, rfl⟩)
  refine ⟨w, ?_, b2, ?_, hclosed, ?_⟩
  · unfold deindexTensor namesOf
    rw [hs]
    exact b1
  · rw [b5]
    congr 1
    apply List.ext_getElem
    · rw [b3]; simp
    · intro i h1' h2'
      simp only [List.length_map] at h2'
      have := b4 i s[i].1 sz[i] (by simp [h2']) (by simp [h1'])
      rw [List.getElem_map]
      exact hv.sizes _ _ _ this ((h3 _ _).1 (List.getElem_mem h2'))
  · intro env env' ix
    rw [den_closed b2 hclosed env' env, b7 env _ ix (by simp)]
    unfold den
    congr 1
    apply coords_congr
    intro n hn
    exact upd_map _ _ _ n (hmem n hn)

theorem bound_spec {f : Arr α → Val β} {shape : List Nat} {sizes : List (Name × Nat)} {out : List Nat}
    (h : Steady f shape sizes out) {x : Arr α} (hx : x.shape = shape) :
    (∃ w, deindexTensor (f x) = .ok w) ∧ (bound f x).shape = sizes.map Prod.snd ++ out ∧
      ∀ env ix, (bound f x).get ((sizes.map Prod.fst).map env ++ ix) = den (f x) env ix := by
  obtain ⟨w, h1, h2, h3, h4, h5⟩ := deindex_spec (h.wf x hx) (h.once x hx) (h.sizes x hx)
  unfold bound
  rw [h1]
  refine ⟨⟨w, rfl⟩, ?_, ?_⟩
  · show w.shape = _
    rw [h3, h.out x hx]
  · intro env ix
    exact h5 env _ ix

theorem names_steady {f : Arr α → Val β} {shape : List Nat} {sizes : List (Name × Nat)} {out : List Nat}
    (h : Steady f shape sizes out) {x : Arr α} (hx : x.shape = shape) : namesOf (f x) = sizes.map Prod.fst := by
  unfold namesOf
  rw [h.sizes x hx]
  rfl

/-! ## Theorems -/

/-- **C76.** Removing the names of a result and giving them back is the identity. -/
theorem C76_roundtrip_partial {v : Val α} (hv : v.Wf) (ho : Once v) :
    ∃ p w, deindexTensor v = .ok p ∧ (∀ n d, ¬ Occurs p n d) ∧ reindex (namesOf v) 0 p = .ok w ∧ Same w v := by
  obtain ⟨s, h1, h2, h3⟩ := hv.sizesOf
  obtain ⟨p, d1, d2, d3, d4, d5⟩ := deindex_spec hv ho h1
  obtain ⟨w, w1, w2, w3, w4, w5⟩ := reindex_spec (sample := []) d2 h2 d3 (fun n d e _ hh => absurd hh (d4 n e))
  refine ⟨p, w, d1, d4, ?_, w3, ?_, ?_⟩
  · unfold namesOf
    rw [h1]
    exact w1
  · intro n d
    rw [w4, h3]
    exact ⟨fun hh => hh.resolve_left (d4 n d), Or.inr⟩
  · intro env ix hix
    have hix' : ix.length = v.shape.length := by rw [hix, w3]; rfl
    have := w5 env [] ix rfl hix'
    simp only [List.nil_append] at this
    rw [this, d5]

mutual

/-- **C76.** The same for results of any structure, whose values have each name once. -/
theorem C76_tree_partial : ∀ (t : Tree (Val α)), Related (fun v _ => v.Wf ∧ Once v) t t →
    ∃ p w, deindexTree t = .ok p ∧ Related (fun q _ => ∀ n d, ¬ Occurs q n d) p p ∧
      reindexTree 0 p (namesTree t) = .ok w ∧ Related Same w t
  | .leaf v, h => by
    simp only [Related] at h
    obtain ⟨p, w, h1, h2, h3, h4⟩ := C76_roundtrip_partial h.1 h.2
    simp only [deindexTree, h1]
    refine ⟨_, .leaf w, rfl, ?_, ?_, ?_⟩
    · simp only [Related]; exact h2
    · simp only [reindexTree, namesTree, reindexTensor, h3]
    · simp only [Related]; exact h4
  | .node ts, h => by
    simp only [Related] at h
    obtain ⟨p, w, h1, h2, h3, h4⟩ := C76_trees_partial ts h
    simp only [deindexTree, h1]
    refine ⟨_, .node w, rfl, ?_, ?_, ?_⟩
    · simp only [Related]; exact h2
    · simp only [reindexTree, namesTree, h3]
    · simp only [Related]; exact h4

theorem C76_trees_partial : ∀ (ts : List (Tree (Val α))), Relateds (fun v _ => v.Wf ∧ Once v) ts ts →
    ∃ p w, deindexTrees ts = .ok p ∧ Relateds (fun q _ => ∀ n d, ¬ Occurs q n d) p p ∧
      reindexTrees 0 p (namesTrees ts) = .ok w ∧ Relateds Same w ts
  | [], _ => by
    refine ⟨[], [], rfl, ?_, rfl, ?_⟩ <;> simp only [Relateds]
  | t :: ts, h => by
    simp only [Relateds] at h
    obtain ⟨p, w, h1, h2, h3, h4⟩ := C76_tree_partial t h.1
    obtain ⟨ps, ws, g1, g2, g3, g4⟩ := C76_trees_partial ts h.2
    simp only [deindexTrees, h1, g1]
    refine ⟨_, w :: ws, rfl, ?_, ?_, ?_⟩
    · simp only [Relateds]; exact ⟨h2, g2⟩
    · simp only [reindexTrees, namesTrees, h3, g3]
    · simp only [Relateds]; exact ⟨h4, g4⟩

end

/-- **C76.** `vmap` of a function whose results have names: the result has the same names, and its entries are those of the
function on the slices. -/
theorem C76_vmap_partial {f : Arr α → Val β} {x : Arr α} {n : Nat} {shape : List Nat} (hx : x.shape = n :: shape)
    {sizes : List (Name × Nat)} {out : List Nat} (h : Steady f shape sizes out) :
    ∃ w, vmapNamed 0 f x = .ok w ∧ w.shape = n :: out ∧ (∀ m d, Occurs w m d ↔ (m, d) ∈ sizes) ∧
      ∀ env (k : Nat) ix, ix.length = out.length → den w env (k :: ix) = den (f (slice x k)) env ix := by
  have hsl : ∀ k, (slice x k).shape = shape := by intro k; simp [slice, hx]
  obtain ⟨⟨w0, hw0⟩, hs, _⟩ := bound_spec h (hsl 0)
  obtain ⟨hn, hm⟩ := sizes_nodup (h.wf _ (hsl 0)) (h.sizes _ (hsl 0))
  obtain ⟨p1, p2, p3⟩ := plain_wf (vmapArr 0 (bound f) x)
  have hshape : (plain (vmapArr 0 (bound f) x)).shape = [n] ++ (sizes.map Prod.snd ++ out) := by
    rw [p2]
    simp [vmapArr, hs, hx]
  obtain ⟨w, w1, w2, w3, w4, w5⟩ := reindex_spec p1 hn hshape (fun m d e _ hh => absurd hh (p3 m e))
  unfold vmapNamed
  rw [hw0]
  simp only
  rw [names_steady h (hsl 0)]
  refine ⟨w, w1, w3, ?_, ?_⟩
  · intro m d
    rw [w4]
    exact ⟨fun hh => hh.resolve_left (p3 m d), Or.inr⟩
  · intro env k ix hix
    have := w5 env [k] ix rfl hix
    simp only [List.singleton_append] at this
    rw [this, plain_den _ _ _ (by rw [← p2, hshape]; simp [hix])]
    simp only [vmapArr, List.getD_cons_zero, List.take_zero, List.nil_append, Nat.zero_add, List.drop_succ_cons,
      List.drop_zero]
    exact (bound_spec h (hsl k)).2.2 env ix

/-- **C76.** `jacfwd` of a function whose results have names: the result has the same names, and for each value of them it is
the matrix of derivatives. -/
theorem C76_jacfwd_partial (deriv : (Arr α → β) → Arr α → List Nat → β) {f : Arr α → Val β} {x : Arr α}
    {sizes : List (Name × Nat)} {out : List Nat} (h : Steady f x.shape sizes out)
    -- derivatives depend on arguments of the same shape only
    (hd : ∀ φ ψ j, (∀ y, y.shape = x.shape → φ y = ψ y) → deriv φ x j = deriv ψ x j) :
    ∃ w, jacNamed deriv f x = .ok w ∧ w.shape = out ++ x.shape ∧ (∀ m d, Occurs w m d ↔ (m, d) ∈ sizes) ∧
      ∀ env ix jx, ix.length = out.length → jx.length = x.shape.length →
        den w env (ix ++ jx) = deriv (fun y => den (f y) env ix) x jx := by
  obtain ⟨⟨w0, hw0⟩, hs, _⟩ := bound_spec h rfl
  obtain ⟨hn, hm⟩ := sizes_nodup (h.wf _ rfl) (h.sizes _ rfl)
  obtain ⟨p1, p2, p3⟩ := plain_wf (jacArr deriv (bound f) x)
  have hshape : (plain (jacArr deriv (bound f) x)).shape = [] ++ (sizes.map Prod.snd ++ (out ++ x.shape)) := by
    rw [p2]
    simp [jacArr, hs]
  obtain ⟨w, w1, w2, w3, w4, w5⟩ := reindex_spec p1 hn hshape (fun m d e _ hh => absurd hh (p3 m e))
  unfold jacNamed
  rw [hw0]
  simp only
  rw [names_steady h rfl]
  refine ⟨w, w1, w3, ?_, ?_⟩
  · intro m d
    rw [w4]
    exact ⟨fun hh => hh.resolve_left (p3 m d), Or.inr⟩
  · intro env ix jx hix hjx
    have := w5 env [] (ix ++ jx) rfl (by simp [hix, hjx])
    simp only [List.nil_append] at this
    rw [this, plain_den _ _ _ (by rw [← p2, hshape]; simp [hix, hjx])]
    simp only [jacArr]
    have hl : ((sizes.map Prod.fst).map env ++ ix).length = (bound f x).shape.length := by rw [hs]; simp [hix]
    rw [← List.append_assoc, List.take_left' hl, List.drop_left' hl]
    apply hd
    intro y hy
    exact (bound_spec h hy).2.2 env ix

/-- **C76.** A call of a function made by `jit` gives the result of the function, if its signature is new, or if the function
has given results with the same names, in the same order, in all calls before. -/
theorem C76_jit_partial {f : Arr α → Val β} {x : Arr α} {sizes : List (Name × Nat)} {out : List Nat}
    (h : Steady f x.shape sizes out) (xs : List (Arr α))
    (hc : (∀ y ∈ xs, y.shape ≠ x.shape) ∨ ∀ y ∈ xs, namesOf (f y) = sizes.map Prod.fst) :
    ∃ w, (jitCall f (jitRun f jitInit xs) x).1 = .ok w ∧ Same w (f x) := by
  have hcache : ∀ (xs : List (Arr α)) (s : Jit), ∀ z, z ∈ (jitRun f s xs).cache ↔ z ∈ s.cache ∨ ∃ y ∈ xs, y.shape = z := by
    intro xs
    induction xs with
    | nil => intro s z; simp [jitRun]
    | cons y ys ih =>
      intro s z
      have := ih (jitCall f s y).2 z
      unfold jitRun at this ⊢
      simp only [List.foldl_cons]
      rw [this]
      unfold jitCall
      simp only
      split
      · next hy =>
        have hy' : y.shape ∈ s.cache := by simpa using hy
        constructor
        · rintro (h | ⟨u, hu, he⟩)
          · exact Or.inl h
          · exact Or.inr ⟨u, List.mem_cons_of_mem _ hu, he⟩
        · rintro (h | ⟨u, hu, he⟩)
          · exact Or.inl h
          · rcases List.mem_cons.1 hu with rfl | hu
            · rw [← he]; exact Or.inl hy'
            · exact Or.inr ⟨u, hu, he⟩
      · simp only [List.mem_cons]
        constructor
        · rintro ((h | h) | ⟨u, hu, he⟩)
          · exact Or.inr ⟨y, Or.inl rfl, h.symm⟩
          · exact Or.inl h
          · exact Or.inr ⟨u, Or.inr hu, he⟩
        · rintro (h | ⟨u, (rfl | hu), he⟩)
          · exact Or.inl (Or.inr h)
          · exact Or.inl (Or.inl he.symm)
          · exact Or.inr ⟨u, hu, he⟩
  have hnames : ∀ (xs : List (Arr α)) (s : Jit), (s.cache ≠ [] → s.indexes = sizes.map Prod.fst) →
      (∀ y ∈ xs, namesOf (f y) = sizes.map Prod.fst) → (jitRun f s xs).cache ≠ [] →
      (jitRun f s xs).indexes = sizes.map Prod.fst := by
    intro xs
    induction xs with
    | nil => intro s hs _ hne; exact hs hne
    | cons y ys ih =>
      intro s hs hy hne
      apply ih (jitCall f s y).2 _ (fun u hu => hy u (List.mem_cons_of_mem _ hu)) hne
      intro _
      unfold jitCall
      simp only
      split
      · next hc =>
        apply hs
        intro he
        rw [he] at hc
        simp at hc
      · exact hy y (by simp)
  have key : (if (jitRun f jitInit xs).cache.contains x.shape then jitRun f jitInit xs
      else ⟨x.shape :: (jitRun f jitInit xs).cache, namesOf (f x)⟩ : Jit).indexes = sizes.map Prod.fst := by
    split
    · next hin =>
      have hin' : x.shape ∈ (jitRun f jitInit xs).cache := by simpa using hin
      rcases hc with hc | hc
      · rcases (hcache xs jitInit _).1 hin' with hh | ⟨y, hy, he⟩
        · simp [jitInit] at hh
        · exact absurd he (hc y hy)
      · exact hnames xs jitInit (by simp [jitInit]) hc (by intro he; rw [he] at hin'; simp at hin')
    · exact names_steady h rfl
  unfold jitCall
  simp only
  rw [key]
  obtain ⟨_, hs, hg⟩ := bound_spec h rfl
  obtain ⟨hn, hm⟩ := sizes_nodup (h.wf _ rfl) (h.sizes _ rfl)
  obtain ⟨p1, p2, p3⟩ := plain_wf (bound f x)
  obtain ⟨w, w1, w2, w3, w4, w5⟩ := reindex_spec (sample := []) (rest := out) p1 hn (by rw [p2, hs]; rfl)
    (fun m d e _ hh => absurd hh (p3 m e))
  refine ⟨w, w1, ?_, ?_, ?_⟩
  · rw [w3, h.out x rfl]; rfl
  · intro n d
    rw [w4, hm]
    exact ⟨fun hh => hh.resolve_left (p3 n d), Or.inr⟩
  · intro env ix hix
    have hix' : ix.length = out.length := by rw [hix, w3]; rfl
    have := w5 env [] ix rfl hix'
    simp only [List.nil_append] at this
    rw [this, plain_den _ _ _ (by rw [hs]; simp [hix']), hg]

/-- **C76.** The function returned by `vjp`, for a cotangent with the names of the result in the same order: torch is given the
positional forms of the function, the argument and the cotangent, and its gradient gets the names of the argument. -/
theorem C76_vjp_partial (grad : (Arr α → Arr β) → Arr α → Arr β → Arr α) (f : Val α → Val β) {x : Val α} {t : Val β}
    (hx : x.Wf) (hox : Once x) (ht : t.Wf) (hot : Once t) {sx st : List (Name × Nat)} (hsx : x.sizes = some sx)
    (hst : t.sizes = some st) (hg : ∀ g p c, (grad g p c).shape = p.shape)
    -- results for arguments with the names and the shape of `x`
    (hf : ∀ y : Val α, y.shape = x.shape → (∀ n d, Occurs y n d ↔ Occurs x n d) →
      (f y).Wf ∧ Once (f y) ∧ (f y).sizes = some st ∧ (f y).shape = t.shape) :
    ∃ (g : Arr α → Arr β) (p : Arr α) (c : Arr β) (w : Val α), vjpNamed grad f x t = .ok w ∧ w.shape = x.shape ∧
      (∀ n d, Occurs w n d ↔ Occurs x n d) ∧
      (∀ env ix, ix.length = x.shape.length → den w env ix = (grad g p c).get ((sx.map Prod.fst).map env ++ ix)) ∧
      p.shape = sx.map Prod.snd ++ x.shape ∧ (∀ env ix, p.get ((sx.map Prod.fst).map env ++ ix) = den x env ix) ∧
      c.shape = st.map Prod.snd ++ t.shape ∧ (∀ env ix, c.get ((st.map Prod.fst).map env ++ ix) = den t env ix) ∧
      ∀ q : Arr α, q.shape = p.shape → ∃ y : Val α, y.shape = x.shape ∧ (∀ n d, Occurs y n d ↔ Occurs x n d) ∧
        (∀ env ix, ix.length = x.shape.length → den y env ix = q.get ((sx.map Prod.fst).map env ++ ix)) ∧
        (g q).shape = st.map Prod.snd ++ t.shape ∧
        ∀ env ix, (g q).get ((st.map Prod.fst).map env ++ ix) = den (f y) env ix := by
  obtain ⟨p, a1, a2, a3, a4, a5⟩ := deindex_spec hx hox hsx
  obtain ⟨c, c1, c2, c3, c4, c5⟩ := deindex_spec ht hot hst
  obtain ⟨hn, hm⟩ := sizes_nodup hx hsx
  unfold vjpNamed
  rw [a1]
  simp only
  rw [c1]
  simp only
  have hnames : namesOf x = sx.map Prod.fst := by unfold namesOf; rw [hsx]; rfl
  rw [hnames]
  have back : ∀ q : Arr α, q.shape = sx.map Prod.snd ++ x.shape →
      ∃ w, reindex (sx.map Prod.fst) 0 (plain q) = .ok w ∧ w.shape = x.shape ∧ (∀ n d, Occurs w n d ↔ Occurs x n d) ∧
        ∀ env ix, ix.length = x.shape.length → den w env ix = q.get ((sx.map Prod.fst).map env ++ ix) := by
    intro q hq
    obtain ⟨p1, p2, p3⟩ := plain_wf q
    obtain ⟨w, w1, w2, w3, w4, w5⟩ := reindex_spec (sample := []) (rest := x.shape) p1 hn (by rw [p2, hq]; rfl)
      (fun m d e _ hh => absurd hh (p3 m e))
    refine ⟨w, w1, w3, ?_, ?_⟩
    · intro n d
      rw [w4, hm]
      exact ⟨fun hh => hh.resolve_left (p3 n d), Or.inr⟩
    · intro env ix hix
      have := w5 env [] ix rfl hix
      simp only [List.nil_append] at this
      rw [this, plain_den _ _ _ (by rw [hq]; simp [hix])]
  have hps : (asArr p).shape = sx.map Prod.snd ++ x.shape := a3
  obtain ⟨w, w1, w3, w4, w5⟩ := back (grad (fun p => asArr (vjpInner f (sx.map Prod.fst) p)) (asArr p) (asArr c))
    (by rw [hg, hps])
  refine ⟨fun p => asArr (vjpInner f (sx.map Prod.fst) p), asArr p, asArr c, w, w1, w3, w4, w5, hps,
    fun env ix => a5 env _ ix, c3, fun env ix => c5 env _ ix, ?_⟩
  intro q hq
  obtain ⟨y, y1, y2, y3, y4⟩ := back q (by rw [hq, hps])
  obtain ⟨f1, f2, f3, f4⟩ := hf y y2 y3
  obtain ⟨r, r1, r2, r3, r4, r5⟩ := deindex_spec f1 f2 f3
  refine ⟨y, y2, y3, y4, ?_, ?_⟩
  · simp only [vjpInner, y1, Except.toOption, Option.getD_some, r1]
    show r.shape = _
    rw [r3, f4]
  · intro env ix
    simp only [vjpInner, y1, Except.toOption, Option.getD_some, r1]
    exact r5 env _ ix

/-! ## Examples -/

/-- The argument with the first dimension called `a`, plus a dimension `b` of size 2. -/
def fab (y : Arr (List Nat)) : Val (List Nat) :=
  ⟨⟨2 :: y.shape, fun ix => ix.headD 0 :: y.get ix.tail⟩, some "b" :: some "a" :: List.replicate (y.shape.length - 1) none⟩

example : (vmapNamed 0 fab ⟨[5, 3, 4], id⟩).toOption.map
    (fun w => (w.shape, den w (fun n => if n = "a" then 2 else 1) [4, 3])) = some ([5, 4], [1, 4, 2, 3]) := by decide

example : (jacNamed (fun φ y j => φ y ++ [100] ++ j) fab ⟨[3, 4], id⟩).toOption.map
    (fun w => (w.shape, den w (fun n => if n = "a" then 2 else 1) [3, 1, 2])) =
      some ([4, 3, 4], [1, 2, 3, 100, 1, 2]) := by decide

example : Steady fab [3, 4] [("b", 2), ("a", 3)] [4] := by
  refine ⟨?_, ?_, ?_, ?_⟩
  · intro x hx
    refine ⟨by simp [fab, hx], ?_⟩
    intro n d e hd he
    simp [Occurs, fab, hx] at hd he
    rcases hd with ⟨rfl, rfl⟩ | ⟨rfl, rfl⟩ <;> simp_all
  · intro x hx n
    have : (fab x).dims = [some "b", some "a", none] := by simp [fab, hx]
    rw [this]
    have hnd : [some "b", some "a", none].Nodup := by decide
    exact List.nodup_iff_count_le_one.1 hnd _
  · intro x hx
    have : (fab x).sizes = sizesLoop [] [(2, some "b"), (3, some "a"), (4, none)] := by simp [Val.sizes, fab, hx]
    rw [this]
    decide
  · intro x hx
    simp [Val.shape, fab, hx, visible]

example : (jitCall fab (jitRun fab jitInit [⟨[3, 4], id⟩, ⟨[6], id⟩]) ⟨[3, 4], id⟩).1.toOption.map
    (fun w => (w.shape, den w (fun n => if n = "a" then 2 else 1) [3])) = some ([4], [1, 2, 3]) := by decide

/-! ## Negations -/

/-- **C76, negation.** After a call with another signature, a call with a signature seen before gets the names of the other
call: here the third result has the name `j` where the function gives `i`. -/
theorem C76_jit_fails :
    let f : Arr (List Nat) → Val (List Nat) := fun y => ⟨y, [some (if y.shape = [2] then "i" else "j")]⟩
    ∃ w, (jitCall f (jitRun f jitInit [⟨[2], id⟩, ⟨[3], id⟩]) ⟨[2], id⟩).1 = .ok w ∧ Occurs w "j" 2 ∧
      (∀ d, ¬ Occurs w "i" d) ∧ Occurs (f ⟨[2], id⟩) "i" 2 :=
  ⟨_, rfl, by unfold Occurs; decide, fun d h => absurd (List.of_mem_zip h).2 (by decide), by unfold Occurs; decide⟩

/-- **C76, negation.** `vmap` with `out_dims=1`: the name gets the dimension of the slices. -/
theorem C76_vmap_out_dims_fails :
    ∃ w, vmapNamed 1 (fun y : Arr (List Nat) => ⟨⟨[3], fun ix => y.get [] ++ ix⟩, [some "a"]⟩) ⟨[2], id⟩ = .ok w ∧
      w.shape = [3] ∧ Occurs w "a" 2 :=
  ⟨_, rfl, rfl, by unfold Occurs; decide⟩

/-- **C76, negation.** `vjp` of the identity for a cotangent whose names are in another order: the gradient is the transposed
cotangent. -/
theorem C76_vjp_order_fails :
    ∃ w, vjpNamed (fun _ _ c => c) id (⟨⟨[2, 2], id⟩, [some "a", some "b"]⟩ : Val (List Nat))
        ⟨⟨[2, 2], id⟩, [some "b", some "a"]⟩ = .ok w ∧
      (∀ env, den w env [] = [env "a", env "b"]) ∧
      ∀ env, den (⟨⟨[2, 2], id⟩, [some "b", some "a"]⟩ : Val (List Nat)) env [] = [env "b", env "a"] :=
  ⟨_, rfl, fun _ => rfl, fun _ => rfl⟩

/-- **C76, negation.** `grad` and `jacfwd` with several `argnums` give a tuple for each result, and the names cannot be given
back. -/
theorem C76_argnums_fails (start : Nat) (gs : List (Tree (Val α))) (names : List Name) :
    reindexTree start (.node gs) (.leaf names) = .error .structure_ := by
  rw [reindexTree]

/-- **C76.** `jvp` of a function with one result gives the names of the result back to both values. -/
theorem C76_jvp_partial {v t : Val α} (hv : v.Wf) (hov : Once v) (ht : t.Wf) (hot : Once t) (hn : namesOf t = namesOf v) :
    ∃ p q w u, deindexTensor v = .ok p ∧ deindexTensor t = .ok q ∧
      jvpNamed [p, q] (.leaf (namesOf v)) = .ok [w, u] ∧ Same w v ∧ Same u t := by
  obtain ⟨p, w, h1, -, h2, h3⟩ := C76_roundtrip_partial hv hov
  obtain ⟨q, u, g1, -, g2, g3⟩ := C76_roundtrip_partial ht hot
  rw [hn] at g2
  refine ⟨p, q, w, u, h1, g1, ?_, h3, g3⟩
  simp [jvpNamed, reindexTensor, h2, g2]
  rfl

/-- **C76, negation.** `jvp` of a function with several results. -/
theorem C76_jvp_fails (r : Val β) (rs : List (Val β)) (is : List (Tree (List Name))) :
    jvpNamed (r :: rs) (.node is) = .error .attribute := rfl

/-- **C76, negation.** A result or an argument with two dimensions of one name: the names cannot be bound, and the
transformations raise RuntimeError (C37). -/
theorem C76_repeated_fails (deriv : (Arr (List Nat) → List Nat) → Arr (List Nat) → List Nat → List Nat)
    (grad : (Arr (List Nat) → Arr (List Nat)) → Arr (List Nat) → Arr (List Nat) → Arr (List Nat)) (f : Val (List Nat) → Val (List Nat))
    (x : Arr (List Nat)) :
    let d : Val (List Nat) := ⟨⟨[2, 2], id⟩, [some "a", some "a"]⟩
    vmapNamed 0 (fun _ => d) x = .error .runtime ∧ jacNamed deriv (fun _ => d) x = .error .runtime ∧
      vjpNamed grad f d (plain x) = .error .runtime ∧ vjpNamed grad f (plain ⟨[2], id⟩) d = .error .runtime :=
  ⟨rfl, rfl, rfl, rfl⟩

end Verif.Indexed.Transform
