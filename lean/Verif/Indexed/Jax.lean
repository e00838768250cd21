import Verif.Indexed.Pointwise

/-!
# C87: jax arrays with named dimensions

Model of `_partial_eval` and `_register_jax_op` (`handlers/jax/_handlers.py` 81-157), for functions with several results, and
of `_bind_dims_array` and `_unbind_dims_array` (`handlers/jax/_terms.py` 434-507). Indexing and `sizesof` for keys of names
and full slices are those of torch (C37), and arrays with named dimensions are `Named.Val`. `jax.vmap` is taken to apply the
function at each flat index.
-/

namespace Verif.Indexed.Jax

open Verif.Indexed.Named
open Verif.Indexed.Pointwise (Arg prod ravel unravel reshape assign inst sizes closed direct HasDim Ranked Consistent Closed
  InRange argShape argAt)

variable {α : Type}

/-- A jax function with several results: their shapes, given by those of the arguments, or it raises; and their entries.
Keyword arguments are arguments. -/
structure Fn (α : Type) where
  shapes : List (List Nat) → Option (List (List Nat))
  val : Nat → List (Arr α) → List Nat → α

/-- `jnp.meshgrid(*[jnp.arange(size) ...], indexing="ij")` (101-103). -/
def mesh (dims : List Nat) : List (Arr Nat) :=
  (List.range dims.length).map fun k => ⟨dims, fun ix => ix.getD k 0⟩

/-- The results of `tpe_jax_fn(*flat_indices)` (105-109), from the `k`-th on. -/
def flatResults (ofNat : Nat → α) (f : Fn α) (s : List (Name × Nat)) (as : List (Arg α)) : Nat → List (List Nat) →
    List (Arr α)
  | _, [] => []
  | k, out :: outs =>
    let dims := s.map Prod.snd
    let flatInds := (mesh dims).map fun t => reshape t [prod dims]
    { shape := prod dims :: out
      get := fun ix =>
        f.val k (as.map (inst ofNat (assign (s.map Prod.fst) (flatInds.map fun t => t.get [ix.headD 0])))) ix.tail } ::
      flatResults ofNat f s as (k + 1) outs

/-- `reindex_flat_array` (111-117), where `indices[0].shape` are the sizes. -/
def reindexFlat (s : List (Name × Nat)) (t : Arr α) : Val α :=
  let shape := (((mesh (s.map Prod.snd)).head?.map Arr.shape).getD []) ++ t.shape.tail
  ⟨reshape t shape, s.map (fun p => some p.1) ++ List.replicate t.shape.tail.length none⟩

/-- `_partial_eval(tm)` (81-120): all arguments are arrays or sized names, so the function is evaluated. -/
def partialEval (ofNat : Nat → α) (f : Fn α) (s : List (Name × Nat)) (as : List (Arg α)) : Except Err (List (Val α)) :=
  match f.shapes (as.map fun a => (inst ofNat (fun _ => 0) a).shape) with
  | none => .error .runtime
  | some outs => .ok ((flatResults ofNat f s as 0 outs).map (reindexFlat s))

/-- The arrays that a function gives, from the `k`-th on. -/
def plainResults (f : Fn α) (xs : List (Arr α)) : Nat → List (List Nat) → List (Val α)
  | _, [] => []
  | k, out :: outs => plain ⟨out, f.val k xs⟩ :: plainResults f xs (k + 1) outs

/-- The operation (128-154). -/
def apply (ofNat : Nat → α) (f : Fn α) (as : List (Arg α)) : Except Err (List (Val α)) :=
  match sizes as with
  | none => .error .value
  | some s =>
    if !s.isEmpty && as.all (closed s) then partialEval ofNat f s as
    else
      match direct as with
      | some xs =>
        match f.shapes (xs.map Arr.shape) with
        | none => .error .runtime
        | some outs => .ok (plainResults f xs 0 outs)
      | none => .error .notHandled

/-- `bind_dims(v, *names)` (`_terms.py` 434-500). A value without names is not a term, and returned (464-465). Otherwise it
is evaluated first (467), so that each name has one dimension, and these come first; then the array is transposed. -/
def bind (v : Val α) (names : List Name) : Except Err (Val α) :=
  if v.dims.all Option.isNone then .ok v
  else
    match v.sizes with
    | none => .error .value
    | some s =>
      let r := Named.partialEval s v
      if names.isEmpty then .ok r
      else
        let dims : List (Option Name) := s.map fun p => some p.1
        if ¬ names.all (fun n => dims.contains (some n)) then .error .notHandled
        else
          let reindex := (List.range dims.length).filter (fun i => keep names (dims.getD i none))
          let perm := names.map (fun n => dims.idxOf (some n)) ++ reindex ++
            (List.range (r.arr.shape.length - dims.length)).map (dims.length + ·)
          match permute r.arr perm with
          | none => .error .runtime
          | some t => getitem (plain t) (List.replicate names.length none ++ reindex.map (dims.getD · none))

/-- `unbind_dims(v, *names)` (503-507). -/
def unbind (v : Val α) (names : List Name) : Except Err (Val α) := getitem v (names.map some)

/-! ## Operations -/

theorem mesh_at (dims ks : List Nat) (h : InRange dims ks) :
    ((mesh dims).map fun t => (reshape t [prod dims]).get [ravel dims ks]) = ks := by
  apply List.ext_getElem
  · simp [mesh, InRange.length h]
  · intro i h1 h2
    simp only [mesh, List.map_map, List.getElem_map, List.getElem_range, Function.comp, reshape, ravel, prod, Nat.mul_one,
      Nat.add_zero]
    rw [Pointwise.unravel_ravel h]
    simp [h2]

theorem flatResults_get (ofNat : Nat → α) (f : Fn α) (s : List (Name × Nat)) (as : List (Arg α)) :
    ∀ (outs : List (List Nat)) (j k : Nat) (out : List Nat), outs[k]? = some out →
      ∃ t : Arr α, (flatResults ofNat f s as j outs)[k]? = some t ∧ t.shape = prod (s.map Prod.snd) :: out ∧
        ∀ ks ix, InRange (s.map Prod.snd) ks →
          t.get (ravel (s.map Prod.snd) ks :: ix) = f.val (j + k) (as.map (inst ofNat (assign (s.map Prod.fst) ks))) ix := by
  intro outs
  induction outs with
  | nil => intro j k out h; simp at h
  | cons o outs ih =>
    intro j k out h
    cases k with
    | zero =>
      simp only [List.getElem?_cons_zero, Option.some.injEq] at h
      subst h
      refine ⟨_, rfl, rfl, fun ks ix hk => ?_⟩
      simp only [List.headD_cons, List.tail_cons, Nat.add_zero]
      have := mesh_at _ ks hk
      rw [List.map_map]
      have e : ((mesh (s.map Prod.snd)).map ((fun t => t.get [ravel (s.map Prod.snd) ks]) ∘
          fun t => reshape t [prod (s.map Prod.snd)])) = ks := this
      rw [e]
    | succ k =>
      obtain ⟨t, h1, h2, h3⟩ := ih (j + 1) k out (by simpa using h)
      refine ⟨t, by simpa [flatResults] using h1, h2, fun ks ix hk => ?_⟩
      rw [h3 ks ix hk, show j + 1 + k = j + (k + 1) by omega]

theorem flatResults_length (ofNat : Nat → α) (f : Fn α) (s : List (Name × Nat)) (as : List (Arg α)) :
    ∀ (outs : List (List Nat)) (j : Nat), (flatResults ofNat f s as j outs).length = outs.length := by
  intro outs
  induction outs with
  | nil => intro j; rfl
  | cons o outs ih => intro j; simp [flatResults, ih]

theorem mesh_shape (s : List (Name × Nat)) : ((mesh (s.map Prod.snd)).head?.map Arr.shape).getD [] = s.map Prod.snd := by
  cases s with
  | nil => rfl
  | cons p s => simp [mesh, List.range_succ_eq_map]

/-- **C87.** An operation on arrays with named dimensions has as many results as the function; each has all names of the
arguments, and gives for all values of the names what the function gives for the entries at these values. -/
theorem C87_pointwise (ofNat : Nat → α) (f : Fn α) (as : List (Arg α)) (hr : Ranked as) (hc : Consistent as)
    (hcl : Closed as) (hn : ∃ n d, HasDim as n d) (outs : List (List Nat)) (hf : f.shapes (as.map argShape) = some outs) :
    ∃ ws, apply ofNat f as = .ok ws ∧ ws.length = outs.length ∧
      ∀ (k : Nat) (out : List Nat), outs[k]? = some out → ∃ w, ws[k]? = some w ∧ w.Wf ∧ w.shape = out ∧
        (∀ n d, Occurs w n d ↔ HasDim as n d) ∧
        ∀ env ix, (∀ n d, HasDim as n d → env n < d) → InRange out ix →
          den w env ix = f.val k (as.map (argAt ofNat env)) ix := by
  obtain ⟨s, h1, h2, h3⟩ := Pointwise.sizes_spec as hc
  have hs : (!s.isEmpty) = true := by
    obtain ⟨n, d, h⟩ := hn
    have := (h3 n d).2 h
    cases s with
    | nil => simp at this
    | cons => rfl
  have hcs : as.all (closed s) = true := by
    rw [List.all_eq_true]
    intro a ha
    cases a with
    | tensor v => rfl
    | name n =>
      obtain ⟨d, hd⟩ := hcl.1 n ha
      simp only [closed, List.contains_iff_mem]
      exact List.mem_map.2 ⟨(n, d), (h3 n d).2 hd, rfl⟩
    | open_ => exact absurd ha hcl.2
  have hsh : f.shapes (as.map fun a => (inst ofNat (fun _ => 0) a).shape) = some outs := by
    simpa only [Pointwise.inst_shape] using hf
  have happ : apply ofNat f as = .ok ((flatResults ofNat f s as 0 outs).map (reindexFlat s)) := by
    simp only [apply, h1, hs, hcs, Bool.and_self, if_true, partialEval, hsh]
  refine ⟨_, happ, by simp [flatResults_length], fun k out hk => ?_⟩
  obtain ⟨t, ht, hts, htg⟩ := flatResults_get ofNat f s as outs 0 k out hk
  refine ⟨reindexFlat s t, by simp [ht], ?_, ?_, ?_, ?_⟩
  · constructor
    · simp [reindexFlat, reshape, mesh_shape]
    · intro n d e hd he
      simp only [Occurs, reindexFlat, reshape, mesh_shape, Pointwise.zip_append_named] at hd he
      exact hc n d e ((h3 n d).1 hd) ((h3 n e).1 he)
  · simp only [Val.shape, reindexFlat, reshape, mesh_shape, Pointwise.visible_named, hts, List.tail_cons]
  · intro n d
    simp only [Occurs, reindexFlat, reshape, mesh_shape, Pointwise.zip_append_named, h3]
  · intro env ix henv hix
    have hin := Pointwise.inRange_sizes env s fun n d hd => henv n d ((h3 n d).1 hd)
    have hl := Pointwise.InRange.length hix
    have hmap : (s.map fun p => some p.1) = (s.map Prod.fst).map some := by simp
    simp only [den, reindexFlat, mesh_shape, hts, List.tail_cons, hmap]
    rw [← hl, Pointwise.coords_named]
    simp only [reshape]
    rw [Pointwise.ravel_append _ _ hin, hts]
    have hflat : InRange (prod (s.map Prod.snd) :: out)
        (ravel (s.map Prod.snd) ((s.map Prod.fst).map env) :: ix) := ⟨Pointwise.InRange.pos hin, hix⟩
    have hu := Pointwise.unravel_ravel hflat
    simp only [ravel] at hu
    rw [hu, htg _ _ hin, Nat.zero_add]
    congr 1
    apply List.map_congr_left
    intro a ha
    apply Pointwise.inst_eq_argAt
    intro n hna
    apply Pointwise.assign_map
    have : ∃ d, HasDim as n d := by
      rcases hna with h | ⟨v, rfl, hv⟩
      · subst h; exact hcl.1 n ha
      · obtain ⟨d, hd⟩ := Pointwise.mem_zip_of_mem v.arr.shape v.dims n (hr v ha) hv
        exact ⟨d, v, ha, hd⟩
    obtain ⟨d, hd⟩ := this
    exact List.mem_map.2 ⟨(n, d), (h3 n d).2 hd, rfl⟩

/-- **C87.** Dimensions of different sizes with the same name: `ValueError`. -/
theorem C87_inconsistent (ofNat : Nat → α) (f : Fn α) (as : List (Arg α)) (h : ¬ Consistent as) :
    apply ofNat f as = .error .value := by
  cases hs : sizes as with
  | none => simp only [apply, hs]
  | some s =>
    exfalso
    apply h
    intro n d e hd he
    exact sizesLoop_functional (Pointwise.entries as) [] s (by simp) hs n d e
      (Or.inr ((Pointwise.mem_entries n d as).2 hd)) (Or.inr ((Pointwise.mem_entries n e as).2 he))

/-- The results of `plainResults` are those of the function. -/
theorem plainResults_get (f : Fn α) (xs : List (Arr α)) : ∀ (outs : List (List Nat)) (j k : Nat),
    (plainResults f xs j outs)[k]? = (outs[k]?).map fun out => plain ⟨out, f.val (j + k) xs⟩ := by
  intro outs
  induction outs with
  | nil => intro j k; simp [plainResults]
  | cons o outs ih =>
    intro j k
    cases k with
    | zero => simp [plainResults]
    | succ k => simp [plainResults, ih, show j + 1 + k = j + (k + 1) by omega]

/-- **C87.** Without named dimensions the operation is the function. -/
theorem C87_plain (ofNat : Nat → α) (f : Fn α) (xs : List (Arr α)) (outs : List (List Nat))
    (hf : f.shapes (xs.map Arr.shape) = some outs) :
    ∃ ws, apply ofNat f (xs.map fun x => .tensor (plain x)) = .ok ws ∧
      ∀ k : Nat, ws[k]? = (outs[k]?).map fun out => plain ⟨out, f.val k xs⟩ := by
  suffices h : apply ofNat f (xs.map fun x => .tensor (plain x)) = .ok (plainResults f xs 0 outs) from
    ⟨_, h, fun k => by rw [plainResults_get, Nat.zero_add]⟩
  have hz : ∀ sh : List Nat, ∀ sz r, sizesLoop sz (sh.zip (List.replicate sh.length none) ++ r) = sizesLoop sz r := by
    intro sh
    induction sh with
    | nil => intro sz r; rfl
    | cons d sh ih => intro sz r; simp [List.replicate_succ, sizesLoop, ih]
  have hs : ∀ ys : List (Arr α), sizes (ys.map fun x => (Arg.tensor (plain x) : Arg α)) = some [] := by
    intro ys
    unfold sizes
    induction ys with
    | nil => rfl
    | cons y ys ih =>
      simp only [List.map_cons, Pointwise.entries, plain]
      rw [hz]
      exact ih
  have hd : ∀ ys : List (Arr α), direct (ys.map fun x => (Arg.tensor (plain x) : Arg α)) = some ys := by
    intro ys
    induction ys with
    | nil => rfl
    | cons y ys ih =>
      have : (plain y).dims.all Option.isNone = true := by simp [plain]
      simp only [List.map_cons, direct, ih, this]
      rfl
  simp only [apply, hs, List.isEmpty_nil, Bool.not_true, Bool.false_and, Bool.false_eq_true, if_false, hd, hf]

/-- **C87.** An argument with a free variable without size: the operation stays a term. -/
theorem C87_open (ofNat : Nat → α) (f : Fn α) (as : List (Arg α)) (hc : Consistent as) (h : ¬ Closed as) :
    apply ofNat f as = .error .notHandled := by
  obtain ⟨s, h1, h2, h3⟩ := Pointwise.sizes_spec as hc
  have hex : ∃ a ∈ as, closed s a = false ∧ ∀ v, a ≠ .tensor v := by
    by_cases ho : Arg.open_ ∈ as
    · exact ⟨_, ho, rfl, fun v => by simp⟩
    · have : ¬ ∀ n, Arg.name n ∈ as → ∃ d, HasDim as n d := fun hh => h ⟨hh, ho⟩
      simp only [not_forall] at this
      obtain ⟨n, hn, hd⟩ := this
      refine ⟨_, hn, ?_, fun v => by simp⟩
      simp only [closed, ← Bool.not_eq_true, List.contains_iff_mem, List.mem_map, not_exists, not_and]
      rintro ⟨m, d⟩ hm rfl
      exact hd ⟨d, (h3 m d).1 hm⟩
  obtain ⟨a, ha, hca, ht⟩ := hex
  have e1 : as.all (closed s) = false := by
    rw [← Bool.not_eq_true, List.all_eq_true]
    intro hh
    rw [hh a ha] at hca
    cases hca
  have e2 : direct as = none := by
    clear e1 h h1 h2 h3 hc hca
    induction as with
    | nil => simp at ha
    | cons b as ih =>
      cases b with
      | tensor v =>
        have ha' : a ∈ as := (List.mem_cons.1 ha).resolve_left (ht v)
        simp only [direct, ih ha']
        cases v.dims.all Option.isNone <;> rfl
      | name n => rfl
      | open_ => rfl
  simp only [apply, h1, e1, Bool.and_false, Bool.false_eq_true, if_false, e2]

/-- **C87.** What the function raises, the operation raises. -/
theorem C87_raises (ofNat : Nat → α) (f : Fn α) (as : List (Arg α)) (hr : Ranked as) (hc : Consistent as) (hcl : Closed as)
    (hf : f.shapes (as.map argShape) = none) : apply ofNat f as = .error .runtime := by
  obtain ⟨s, h1, h2, h3⟩ := Pointwise.sizes_spec as hc
  by_cases hn : ∃ n d, HasDim as n d
  · have hs : (!s.isEmpty) = true := by
      obtain ⟨n, d, h⟩ := hn
      have := (h3 n d).2 h
      cases s with
      | nil => simp at this
      | cons => rfl
    have hcs : as.all (closed s) = true := by
      rw [List.all_eq_true]
      intro a ha
      cases a with
      | tensor v => rfl
      | name n =>
        obtain ⟨d, hd⟩ := hcl.1 n ha
        simp only [closed, List.contains_iff_mem]
        exact List.mem_map.2 ⟨(n, d), (h3 n d).2 hd, rfl⟩
      | open_ => exact absurd ha hcl.2
    have hsh : f.shapes (as.map fun a => (inst ofNat (fun _ => 0) a).shape) = none := by
      simpa only [Pointwise.inst_shape] using hf
    simp only [apply, h1, hs, hcs, Bool.and_self, if_true, partialEval, hsh]
  · have hs : s = [] := by
      cases s with
      | nil => rfl
      | cons p s => exact absurd ⟨p.1, p.2, (h3 p.1 p.2).1 List.mem_cons_self⟩ hn
    obtain ⟨xs, h4, h5⟩ := Pointwise.direct_plain as (Pointwise.all_plain as hr hcl hn)
    rw [← h5] at hf
    simp only [apply, h1, hs, List.isEmpty_nil, Bool.not_true, Bool.false_and, Bool.false_eq_true, if_false, h4, hf]

/-! ## Binding -/

theorem filter_append_range (n k : Nat) (p : Nat → Bool) (h : ∀ i, n ≤ i → i < n + k → p i = true) :
    (List.range (n + k)).filter p = (List.range n).filter p ++ (List.range k).map (n + ·) := by
  rw [List.range_add, List.filter_append]
  congr 1
  rw [List.filter_eq_self]
  intro i hi
  obtain ⟨j, hj, rfl⟩ := List.mem_map.1 hi
  exact h _ (by omega) (by have := List.mem_range.1 hj; omega)

/-- Trailing full slices of a key change nothing, if the key has another full slice. -/
theorem getitem_pad (v : Val α) (key : List (Option Name)) (m : Nat) (hm : key.length + m ≤ v.shape.length)
    (hk : key.all Option.isSome = false) : getitem v (key ++ List.replicate m none) = getitem v key := by
  have hp : pad v.shape.length (key ++ List.replicate m none) = pad v.shape.length key := by
    simp only [pad, List.length_append, List.length_replicate, List.append_assoc, List.replicate_append_replicate]
    congr 2
    omega
  have ha : (key ++ List.replicate m none).all Option.isSome = false := by
    rw [List.all_append, hk, Bool.false_and]
  unfold getitem
  rw [hp, ha, hk]
  simp only [Bool.and_false, Bool.false_eq_true, if_false]
  rw [if_neg (by simp; omega), if_neg (by omega)]

theorem dims_mem (s : List (Name × Nat)) (n : Name) : some n ∈ (s.map fun p => (some p.1 : Option Name)) ↔ ∃ d, (n, d) ∈ s := by
  constructor
  · intro h
    obtain ⟨p, hp, e⟩ := List.mem_map.1 h
    cases e
    exact ⟨p.2, hp⟩
  · rintro ⟨d, hd⟩
    exact List.mem_map.2 ⟨(n, d), hd, rfl⟩

/-- The value is evaluated first; then `bind_dims` does what it does for torch (C37). -/
theorem bind_eq {v : Val α} (hv : v.Wf) (names : List Name) (hn : names.Nodup) (hne : names ≠ [])
    (hc : ∀ n ∈ names, ∃ d, Occurs v n d) :
    ∃ s, v.sizes = some s ∧ (s.map Prod.fst).Nodup ∧ (∀ n d, (n, d) ∈ s ↔ Occurs v n d) ∧
      bind v names = Named.bind (Named.partialEval s v) names := by
  obtain ⟨s, h1, h2, h3⟩ := hv.sizesOf
  refine ⟨s, h1, h2, h3, ?_⟩
  obtain ⟨n0, rest, rfl⟩ := List.exists_cons_of_ne_nil hne
  obtain ⟨d0, hd0⟩ := hc n0 List.mem_cons_self
  generalize hN : n0 :: rest = names at *
  have hv0 : v.dims.all Option.isNone = false := by
    rw [← Bool.not_eq_true, List.all_eq_true]
    intro hh
    have := hh _ (List.of_mem_zip hd0).2
    cases this
  obtain ⟨rw1, rsh, rocc⟩ := partialEval_wf v h2
  obtain ⟨s', g1, g2, g3⟩ := rw1.sizesOf
  have hmem : ∀ n ∈ names, ∃ d, (n, d) ∈ s := fun n hn => by
    obtain ⟨d, hd⟩ := hc n hn
    exact ⟨d, (h3 n d).2 hd⟩
  have hall : (names.all fun n => (s.map fun p => (some p.1 : Option Name)).contains (some n)) = true := by
    rw [List.all_eq_true]
    intro n hn
    rw [List.contains_iff_mem]
    exact (dims_mem s n).2 (hmem n hn)
  have hrd : (Named.partialEval s v).dims = (s.map fun p => (some p.1 : Option Name)) ++ List.replicate v.shape.length none := rfl
  have hallr : (names.all fun n => (Named.partialEval s v).dims.contains (some n)) = true := by
    rw [List.all_eq_true]
    intro n hn
    rw [List.contains_iff_mem, hrd]
    exact List.mem_append_left _ ((dims_mem s n).2 (hmem n hn))
  have hn0 : n0 ∈ names := hN ▸ List.mem_cons_self
  have hsome : (names.all fun n => !(s'.map Prod.fst).contains n) = false := by
    rw [← Bool.not_eq_true, List.all_eq_true]
    intro hh
    have := hh n0 hn0
    simp only [Bool.not_eq_true'] at this
    have hm : n0 ∈ s'.map Prod.fst := List.mem_map.2 ⟨(n0, d0), (g3 _ _).2 ((rocc _ _).2 ((h3 _ _).2 hd0)), rfl⟩
    rw [← List.contains_iff_mem] at hm
    rw [this] at hm
    cases hm
  have hrall : (Named.partialEval s v).dims.all Option.isNone = false := by
    rw [← Bool.not_eq_true, List.all_eq_true]
    intro hh
    obtain ⟨d, hd⟩ := hmem n0 hn0
    have := hh (some n0) (by rw [hrd]; exact List.mem_append_left _ ((dims_mem s n0).2 ⟨d, hd⟩))
    cases this
  have hemp : names.isEmpty = false := by rw [← hN]; rfl
  unfold bind Named.bind
  simp only [hv0, Bool.false_eq_true, if_false, h1, hemp, hall, not_true_eq_false, hn, g1, hsome, hrall, hallr]
  -- the permutations
  have hlen : (Named.partialEval s v).arr.shape.length = s.length + v.shape.length := by simp [Named.partialEval]
  have hgetl : ∀ i, i < s.length → (Named.partialEval s v).dims.getD i none = (s.map fun p => (some p.1 : Option Name)).getD i none := by
    intro i hi
    rw [hrd, List.getD_eq_getElem?_getD, List.getElem?_append_left (by simpa using hi), ← List.getD_eq_getElem?_getD]
  have hgetr : ∀ i, s.length ≤ i → (Named.partialEval s v).dims.getD i none = none := by
    intro i hi
    rw [hrd, List.getD_eq_getElem?_getD, List.getElem?_append_right (by simpa using hi), List.getElem?_replicate]
    split <;> rfl
  have hre : ((List.range (Named.partialEval s v).dims.length).filter
        fun i => keep names ((Named.partialEval s v).dims.getD i none)) =
      ((List.range (s.map fun p => (some p.1 : Option Name)).length).filter
        fun i => keep names ((s.map fun p => (some p.1 : Option Name)).getD i none)) ++
      (List.range v.shape.length).map (s.length + ·) := by
    have hl : (Named.partialEval s v).dims.length = s.length + v.shape.length := by simp [hrd]
    rw [hl, filter_append_range]
    · congr 1
      simp only [List.length_map]
      apply List.filter_congr
      intro i hi
      rw [hgetl i (List.mem_range.1 hi)]
    · intro i hi _
      rw [hgetr i hi]; rfl
  have hidx : (names.map fun n => (Named.partialEval s v).dims.idxOf (some n)) =
      names.map fun n => (s.map fun p => (some p.1 : Option Name)).idxOf (some n) := by
    apply List.map_congr_left
    intro n hn
    rw [hrd, List.idxOf_append_of_mem ((dims_mem s n).2 (hmem n hn))]
  have hsub : (Named.partialEval s v).arr.shape.length - (s.map fun p => (some p.1 : Option Name)).length = v.shape.length := by
    rw [hlen]; simp
  rw [hre, hidx, hsub]
  simp only [List.length_map, List.append_assoc]
  generalize hP : (names.map fun n => (s.map fun p => (some p.1 : Option Name)).idxOf (some n)) ++
    ((List.range s.length).filter (fun i => keep names ((s.map fun p => (some p.1 : Option Name)).getD i none)) ++
      (List.range v.shape.length).map (s.length + ·)) = perm
  cases ht : permute (Named.partialEval s v).arr perm with
  | none => rfl
  | some t =>
    simp only
    have hperm : perm.length = s.length + v.shape.length ∧ t.shape.length = perm.length := by
      unfold permute at ht
      split at ht
      · rename_i hp
        cases ht
        exact ⟨hp.1.trans hlen, by simp⟩
      · cases ht
    have hkey : ((List.range s.length).filter (fun i => keep names ((s.map fun p => (some p.1 : Option Name)).getD i none)) ++
        (List.range v.shape.length).map (s.length + ·)).map ((Named.partialEval s v).dims.getD · none) =
        ((List.range s.length).filter (fun i => keep names ((s.map fun p => (some p.1 : Option Name)).getD i none))).map
          ((s.map fun p => (some p.1 : Option Name)).getD · none) ++ List.replicate v.shape.length none := by
      rw [List.map_append]
      congr 1
      · apply List.map_congr_left
        intro i hi
        exact hgetl i (List.mem_range.1 (List.mem_filter.1 hi).1)
      · rw [List.map_map, List.eq_replicate_iff]
        refine ⟨by simp, fun b hb => ?_⟩
        obtain ⟨i, _, rfl⟩ := List.mem_map.1 hb
        exact hgetr (s.length + i) (Nat.le_add_right _ _)
    rw [hkey, ← List.append_assoc]
    symm
    apply getitem_pad
    · have : (plain t).shape = t.shape := visible_all t.shape
      rw [this, hperm.2, hperm.1]
      have := hperm.1
      rw [← hP] at this
      simp only [List.length_append, List.length_map, List.length_range] at this
      simp only [List.length_append, List.length_replicate, List.length_map]
      omega
    · rw [List.all_append, ← hN]
      simp [List.replicate_succ]

theorem partialEval_same {v : Val α} (hv : v.Wf) {s : List (Name × Nat)} (h2 : (s.map Prod.fst).Nodup)
    (h3 : ∀ n d, (n, d) ∈ s ↔ Occurs v n d) : Same (Named.partialEval s v) v := by
  obtain ⟨_, rsh, rocc⟩ := partialEval_wf v h2
  refine ⟨rsh, fun n d => (rocc n d).trans (h3 n d), fun env ix _ => ?_⟩
  refine partialEval_den v hv.rank (fun n hn => ?_) env ix
  obtain ⟨d, hd⟩ := Pointwise.mem_zip_of_mem v.arr.shape v.dims n hv.rank hn
  exact List.mem_map.2 ⟨(n, d), (h3 n d).2 hd, rfl⟩

theorem partialEval_count {v : Val α} {s : List (Name × Nat)} (h2 : (s.map Prod.fst).Nodup) (n : Name) (d : Nat)
    (h : (n, d) ∈ s) : (Named.partialEval s v).dims.count (some n) = 1 := by
  show ((s.map fun p : Name × Nat => (some p.1 : Option Name)) ++ List.replicate v.shape.length none).count (some n) = 1
  rw [List.count_append, List.count_replicate]
  have e : (s.map fun p : Name × Nat => (some p.1 : Option Name)) = (s.map Prod.fst).map some := by simp
  rw [e, List.count_eq_one_of_mem (h2.map fun a b h => Option.some.inj h)
    (List.mem_map.2 ⟨n, List.mem_map.2 ⟨(n, d), h, rfl⟩, rfl⟩)]
  simp

/-- **C87.** `bind_dims(v, *names)` for distinct names of `v`: their dimensions come first, in the order of the names, and
nothing else changes. A name may have been used for several dimensions. -/
theorem C87_bind {v : Val α} (hv : v.Wf) (names : List Name) (hn : names.Nodup) (hne : names ≠ [])
    (hc : ∀ n ∈ names, ∃ d, Occurs v n d) :
    ∃ w sz, bind v names = .ok w ∧ w.Wf ∧ sz.length = names.length ∧
      (∀ (k : Nat) n d, names[k]? = some n → sz[k]? = some d → Occurs v n d) ∧ w.shape = sz ++ v.shape ∧
      (∀ n d, Occurs w n d ↔ Occurs v n d ∧ n ∉ names) ∧
      ∀ env js ix, js.length = names.length → ix.length = v.shape.length →
        den w env (js ++ ix) = den v (upd env names js) ix := by
  obtain ⟨s, h1, h2, h3, e⟩ := bind_eq hv names hn hne hc
  have hs := partialEval_same hv h2 h3
  obtain ⟨w, sz, hb, hw, hl, hsz, hsh, hocc, hden⟩ := C37_bind_partial (partialEval_wf v h2).1 names hn (fun n hn => by
    obtain ⟨d, hd⟩ := hc n hn
    exact partialEval_count h2 n d ((h3 n d).2 hd))
  refine ⟨w, sz, e.trans hb, hw, hl, fun k n d h1 h2 => (hs.named n d).1 (hsz k n d h1 h2), ?_, ?_, ?_⟩
  · rw [hsh, hs.shape]
  · intro n d
    rw [hocc, hs.named]
  · intro env js ix hj hi
    rw [hden env js ix hj, hs.den _ _ (by rw [hs.shape]; exact hi)]

/-- **C87.** Unbinding names after binding them gives the array back. -/
theorem C87_bind_unbind {v : Val α} (hv : v.Wf) (names : List Name) (hn : names.Nodup) (hne : names ≠ [])
    (hc : ∀ n ∈ names, ∃ d, Occurs v n d) : ∃ w u, bind v names = .ok w ∧ unbind w names = .ok u ∧ Same u v := by
  obtain ⟨s, h1, h2, h3, e⟩ := bind_eq hv names hn hne hc
  have hs := partialEval_same hv h2 h3
  obtain ⟨w, u, hb, hu, hsame⟩ := C37_bind_unbind_partial (partialEval_wf v h2).1 names hn (fun n hn => by
    obtain ⟨d, hd⟩ := hc n hn
    exact partialEval_count h2 n d ((h3 n d).2 hd))
  refine ⟨w, u, e.trans hb, hu, hsame.shape.trans hs.shape, fun n d => (hsame.named n d).trans (hs.named n d), ?_⟩
  intro env ix hi
  rw [hsame.den env ix hi, hs.den env ix (by rw [← hsame.shape]; exact hi)]

/-- **C87.** Binding names again after unbinding them gives the array back. -/
theorem C87_unbind_bind {v : Val α} (hv : v.Wf) (names : List Name) (hn : names.Nodup) (hne : names ≠ [])
    (hl : names.length ≤ v.shape.length) (hfresh : ∀ n ∈ names, ∀ d, ¬ Occurs v n d) :
    ∃ w u, unbind v names = .ok w ∧ bind w names = .ok u ∧ Same u v := by
  obtain ⟨w, hw, hwf, hsh, hocc, hden⟩ := C37_unbind_partial hv names hn hl hfresh
  have hzip : ∀ (k : Nat) n d, names[k]? = some n → v.shape[k]? = some d → (d, n) ∈ v.shape.zip names := by
    intro k n d h1 h2
    refine List.mem_iff_getElem?.2 ⟨k, ?_⟩
    rw [List.getElem?_zip_eq_some]
    exact ⟨h2, h1⟩
  have hc : ∀ n ∈ names, ∃ d, Occurs w n d := by
    intro n hn
    obtain ⟨k, hk, e⟩ := List.getElem_of_mem hn
    have hk' : k < v.shape.length := by omega
    exact ⟨v.shape[k], (hocc _ _).2 (Or.inr (hzip k n _ (by simp [hk, e]) (by simp [hk'])))⟩
  obtain ⟨u, sz, hb, huw, hszl, hsz, hush, huocc, huden⟩ := C87_bind hwf names hn hne hc
  have hsz' : sz = v.shape.take names.length := by
    apply List.ext_getElem
    · simp; omega
    · intro k h1 h2
      have hk : k < names.length := by omega
      have hk' : k < v.shape.length := by omega
      have := hsz k names[k] sz[k] (by simp [hk]) (by simp [h1])
      have h' := (hocc names[k] v.shape[k]).2 (Or.inr (hzip k _ _ (by simp [hk]) (by simp [hk'])))
      rw [List.getElem_take]
      exact hwf.sizes _ _ _ this h'
  refine ⟨w, u, hw, hb, ?_, ?_, ?_⟩
  · rw [hush, hsz', hsh, List.take_append_drop]
  · intro n d
    rw [huocc, hocc]
    constructor
    · rintro ⟨h | h, hnn⟩
      · exact h
      · exact absurd (List.of_mem_zip h).2 hnn
    · intro h
      exact ⟨Or.inl h, fun hnn => hfresh n hnn d h⟩
  · intro env ix hi
    rw [hush, hsz', hsh, List.take_append_drop] at hi
    have hwl : w.shape.length = v.shape.length - names.length := by rw [hsh]; simp
    have h1 : (ix.take names.length).length = names.length := by simp; omega
    have h2 : (ix.drop names.length).length = v.shape.length - names.length := by simp; omega
    have hd := huden env (ix.take names.length) (ix.drop names.length) h1 (by rw [hwl]; exact h2)
    rw [List.take_append_drop] at hd
    rw [hd, hden _ _ h2]
    have hm : names.map (upd env names (ix.take names.length)) = ix.take names.length := by
      apply List.ext_getElem
      · simp; omega
      · intro k h3 h4
        have hk : k < names.length := by simpa using h3
        simp only [List.getElem_map, upd, List.getElem_mem, if_true]
        rw [hn.idxOf_getElem k hk, List.getD_eq_getElem?_getD, List.getElem?_eq_getElem h4, Option.getD_some]
    rw [hm, List.take_append_drop]
    unfold den
    congr 1
    apply coords_congr
    intro n hnd
    have : n ∉ names := fun hnn => by
      obtain ⟨d, hd⟩ := Pointwise.mem_zip_of_mem v.arr.shape v.dims n hv.rank hnd
      exact hfresh n hnn d hd
    simp [upd, this]

/-- **C87.** Other names: an array without named dimensions is returned as it is; if a name is missing otherwise, the
operation stays a term; a name given twice raises. -/
theorem C87_other_names {v : Val α} (hv : v.Wf) (names : List Name) :
    ((∀ n d, ¬ Occurs v n d) → bind v names = .ok v) ∧
    ((∃ n d, Occurs v n d) → (∃ n ∈ names, ∀ d, ¬ Occurs v n d) → bind v names = .error .notHandled) ∧
    ((∀ n ∈ names, ∃ d, Occurs v n d) → ¬ names.Nodup → bind v names = .error .runtime) := by
  obtain ⟨s, h1, h2, h3⟩ := hv.sizesOf
  have hall : (∃ n d, Occurs v n d) → v.dims.all Option.isNone = false := by
    rintro ⟨n, d, h⟩
    rw [← Bool.not_eq_true, List.all_eq_true]
    intro hh
    have := hh _ (List.of_mem_zip h).2
    cases this
  refine ⟨fun h => ?_, fun hex hmiss => ?_, fun hc hnd => ?_⟩
  · have : v.dims.all Option.isNone = true := by
      rw [List.all_eq_true]
      intro k hk
      cases k with
      | none => rfl
      | some n =>
        obtain ⟨d, hd⟩ := Pointwise.mem_zip_of_mem v.arr.shape v.dims n hv.rank hk
        exact absurd hd (h n d)
    simp only [bind, this, if_true]
  · obtain ⟨n, hn, hno⟩ := hmiss
    have he : names.isEmpty = false := by cases names <;> simp_all
    have hc : (names.all fun n => (s.map fun p => (some p.1 : Option Name)).contains (some n)) = false := by
      rw [← Bool.not_eq_true, List.all_eq_true]
      intro hh
      have := hh n hn
      rw [List.contains_iff_mem, dims_mem] at this
      obtain ⟨d, hd⟩ := this
      exact hno d ((h3 n d).1 hd)
    simp only [bind, hall hex, Bool.false_eq_true, if_false, h1, he, hc, not_false_eq_true, if_true]
  · have hne : names ≠ [] := fun e => hnd (e ▸ List.nodup_nil)
    obtain ⟨n0, rest, rfl⟩ := List.exists_cons_of_ne_nil hne
    have hex : ∃ n d, Occurs v n d := ⟨n0, hc n0 List.mem_cons_self⟩
    have hcc : ((n0 :: rest).all fun n => (s.map fun p => (some p.1 : Option Name)).contains (some n)) = true := by
      rw [List.all_eq_true]
      intro n hn
      obtain ⟨d, hd⟩ := hc n hn
      rw [List.contains_iff_mem, dims_mem]
      exact ⟨d, (h3 n d).2 hd⟩
    have hperm : ∀ l, permute (Named.partialEval s v).arr
        ((n0 :: rest).map (fun n => (s.map fun p => (some p.1 : Option Name)).idxOf (some n)) ++ l) = none := by
      intro l
      unfold permute
      rw [if_neg]
      rintro ⟨_, hd, _⟩
      exact hnd (List.Nodup.of_map _ (List.nodup_append.1 hd).1)
    simp only [bind, hall hex, Bool.false_eq_true, if_false, h1, List.isEmpty_cons, hcc, not_true_eq_false,
      List.append_assoc, hperm]

/-! ## Examples -/

/-- `x[a(), a()]`: the diagonal. -/
def diag : Val Nat := ⟨⟨[2, 2, 3], fun ix => 100 * ix.getD 0 0 + 10 * ix.getD 1 0 + ix.getD 2 0⟩, [some "a", some "a", none]⟩

example : diag.Wf ∧ (∃ d, Occurs diag "a" d) ∧ ∃ w, bind diag ["a"] = .ok w ∧ w.arr.shape = [2, 3] ∧ w.dims = [none, none] ∧
    w.arr.get [1, 2] = 112 := by
  refine ⟨⟨rfl, ?_⟩, ⟨2, by simp [Occurs, diag]⟩, _, rfl, rfl, rfl, by decide⟩
  intro n d e hd he
  simp [Occurs, diag] at hd he
  omega

example : (match bind diag ["a", "a"] with | .error .runtime => True | _ => False) ∧
    (match bind diag ["b"] with | .error .notHandled => True | _ => False) := ⟨by simp [bind, diag, Val.sizes, sizesLoop, Named.partialEval, permute, Val.shape, visible], by
      simp [bind, diag, Val.sizes, sizesLoop]⟩

/-- The two results of `jnp.divmod`. -/
def divmod : Fn Nat where
  shapes
    | [a, b] => if a = b then some [a, a] else none
    | _ => none
  val
    | 0, [a, b], ix => a.get ix / b.get ix
    | 1, [a, b], ix => a.get ix % b.get ix
    | _, _, _ => 0

example : ∃ w0 w1, apply id divmod [.tensor Pointwise.x, .tensor Pointwise.y] = .ok [w0, w1] ∧
    w0.dims = [some "i", some "j", none] ∧ w1.arr.shape = [2, 4, 3] ∧ w1.arr.get [1, 3, 2] = 12 :=
  ⟨_, _, rfl, rfl, rfl, by decide⟩

/-- The hypotheses of `C87_pointwise`. -/
example : Ranked [.tensor Pointwise.x, .tensor Pointwise.y] ∧ Closed [.tensor Pointwise.x, .tensor Pointwise.y] ∧
    HasDim [.tensor Pointwise.x, .tensor Pointwise.y] "i" 2 ∧
    divmod.shapes ([Arg.tensor Pointwise.x, .tensor Pointwise.y].map argShape) = some [[3], [3]] := by
  refine ⟨?_, ⟨?_, by simp⟩, ⟨Pointwise.x, by simp, by simp [Pointwise.x, Occurs]⟩, rfl⟩
  · intro v hv
    simp at hv
    rcases hv with rfl | rfl <;> rfl
  · intro n hn
    simp at hn

/-- One name for dimensions of sizes 2 and 3. -/
example : (match apply id divmod [.tensor diag, .tensor ⟨⟨[3, 3], fun _ => 1⟩, [some "a", none]⟩] with
    | .error .value => True
    | _ => False) := by
  simp [apply, sizes, Pointwise.entries, diag, sizesLoop]

/-- Unbinding and binding an array of shape `(2, 3)`. -/
example : ∃ w u, unbind (plain ⟨[2, 3], fun ix => 10 * ix.getD 0 0 + ix.getD 1 0⟩) ["a", "b"] = .ok w ∧
    bind w ["a", "b"] = .ok u ∧ u.arr.shape = [2, 3] ∧ u.dims = [none, none] ∧ u.arr.get [1, 2] = 12 :=
  ⟨_, _, rfl, rfl, rfl, rfl, by decide⟩

/-- An array without names is returned, whatever names are given. -/
example : ∃ w, bind (plain ⟨[2, 3], fun ix => ix.getD 0 0⟩) ["a"] = .ok w ∧ w.arr.shape = [2, 3] := ⟨_, rfl, rfl⟩

/-- With an open argument the operation stays a term; with other shapes it raises. -/
example : (match apply id divmod [.tensor Pointwise.x, .open_] with | .error .notHandled => True | _ => False) ∧
    (match apply id divmod [.tensor Pointwise.x] with | .error .runtime => True | _ => False) ∧
    ¬ Closed [Arg.tensor Pointwise.x, .open_] := by
  refine ⟨?_, ?_, fun h => h.2 (by simp)⟩
  · simp [apply, sizes, Pointwise.entries, Pointwise.x, sizesLoop, closed, direct]
  · simp [apply, sizes, Pointwise.entries, Pointwise.x, sizesLoop, closed, partialEval, divmod]

end Verif.Indexed.Jax
