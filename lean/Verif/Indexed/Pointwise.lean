import Verif.Indexed.Named

/-!
# C70: operations on tensors with named dimensions

Model of `_register_torch_op` (`handlers/torch.py` 228-262) for a function other than indexing, with `sizesof` 37-80 of
several arguments and `_partial_eval` 83-130 step by step: ranges for each named dimension, broadcast together and
flattened; the function applied at each flat index (`torch.func.vmap`); the result reshaped and indexed with the names.

Tensors with named dimensions are those of C37 (`Named.Val`). The arguments are positional; a function returns one tensor.
-/

namespace Verif.Indexed.Pointwise

open Verif.Indexed.Named

variable {α : Type}

/-- An argument: a tensor, with named dimensions or without; the index `n()` itself; or a term with a free variable that
has no size. -/
inductive Arg (α : Type) where
  | tensor (v : Val α)
  | name (n : Name)
  | open_

/-- A torch function: the shape of the result is given by those of the arguments, or it raises. -/
structure Fn (α : Type) where
  shape : List (List Nat) → Option (List Nat)
  val : List (Arr α) → List Nat → α

/-- The entries of all keys with their dimensions, in the order of evaluation. -/
def entries : List (Arg α) → List (Nat × Option Name)
  | [] => []
  | .tensor v :: as => v.arr.shape.zip v.dims ++ entries as
  | .name _ :: as => entries as
  | .open_ :: as => entries as

/-- `sizesof(tm)`. -/
def sizes (as : List (Arg α)) : Option (List (Name × Nat)) := sizesLoop [] (entries as)

/-- Free variables other than those with a size: `set(sized_fvs) == fvsof(tm) - {...}` (246-249). -/
def closed (s : List (Name × Nat)) : Arg α → Bool
  | .tensor _ => true
  | .name n => (s.map Prod.fst).contains n
  | .open_ => false

def prod : List Nat → Nat
  | [] => 1
  | d :: ds => d * prod ds

/-- The position of an index in row-major order. -/
def ravel : List Nat → List Nat → Nat
  | _ :: ds, i :: ix => i * prod ds + ravel ds ix
  | _, _ => 0

/-- The index at a position in row-major order. -/
def unravel : List Nat → Nat → List Nat
  | [], _ => []
  | _ :: ds, k => k / prod ds :: unravel ds (k % prod ds)

/-- `t.reshape(shape)`. -/
def reshape {β : Type} (t : Arr β) (shape : List Nat) : Arr β :=
  ⟨shape, fun ix => t.get (unravel t.shape (ravel shape ix))⟩

/-- Broadcasting to a larger shape. -/
def expand {β : Type} (t : Arr β) (shape : List Nat) : Arr β :=
  ⟨shape, fun ix => t.get (List.zipWith (fun d i => if d = 1 then 0 else i) t.shape (ix.drop (ix.length - t.shape.length)))⟩

/-- `torch.arange(size)[(...,) + (None,) * k]`. -/
def range (size k : Nat) : Arr Nat := ⟨size :: List.replicate k 1, fun ix => ix.headD 0⟩

/-- `inds` (113-118): the ranges of the sizes, broadcast to `all`. -/
def inds (all : List Nat) : List Nat → List (Arr Nat)
  | [] => []
  | size :: rest => expand (range size rest.length) all :: inds all rest

/-- The values of the names given by the handler in `wrapper` (102-109). -/
def assign : List Name → List Nat → Name → Nat
  | n :: ns, v :: vs, m => if m = n then v else assign ns vs m
  | _, _, _ => 0

/-- The value of an argument for given values of the names: indexing with numbers and full slices (C69). -/
def inst (ofNat : Nat → α) (env : Name → Nat) : Arg α → Arr α
  | .tensor v => ⟨v.shape, fun ix => v.arr.get (coords v.dims env ix)⟩
  | .name n => ⟨[], fun _ => ofNat (env n)⟩
  | .open_ => ⟨[], fun _ => ofNat 0⟩

/-- `_partial_eval(tm)` (83-130). -/
def partialEval (ofNat : Nat → α) (f : Fn α) (s : List (Name × Nat)) (as : List (Arg α)) : Except Err (Val α) :=
  let names := s.map Prod.fst
  let dims := s.map Prod.snd
  match f.shape (as.map fun a => (inst ofNat (fun _ => 0) a).shape) with
  | none => .error .runtime
  | some out =>
    let flatInds := (inds dims dims).map fun t => reshape t [prod dims]
    let flat : Arr α :=
      { shape := prod dims :: out
        get := fun ix => f.val (as.map (inst ofNat (assign names (flatInds.map fun t => t.get [ix.headD 0])))) ix.tail }
    .ok ⟨reshape flat (dims ++ flat.shape.tail), s.map (fun p => some p.1) ++ List.replicate flat.shape.tail.length none⟩

/-- The arguments, if none of them is a term (254-259). -/
def direct : List (Arg α) → Option (List (Arr α))
  | [] => some []
  | .tensor v :: as =>
    match v.dims.all Option.isNone, direct as with
    | true, some xs => some (v.arr :: xs)
    | _, _ => none
  | _ :: _ => none

/-- The operation (234-260). -/
def apply (ofNat : Nat → α) (f : Fn α) (as : List (Arg α)) : Except Err (Val α) :=
  match sizes as with
  | none => .error .value
  | some s =>
    if !s.isEmpty && as.all (closed s) then partialEval ofNat f s as
    else
      match direct as with
      | some xs =>
        match f.shape (xs.map Arr.shape) with
        | none => .error .runtime
        | some out => .ok (plain ⟨out, f.val xs⟩)
      | none => .error .notHandled

/-! ## What is stated -/

/-- A dimension of size `d` of an argument has the name `n`. -/
def HasDim (as : List (Arg α)) (n : Name) (d : Nat) : Prop := ∃ v, Arg.tensor v ∈ as ∧ Occurs v n d

/-- Each tensor has an index with an entry for each dimension. -/
def Ranked (as : List (Arg α)) : Prop := ∀ v, Arg.tensor v ∈ as → v.dims.length = v.arr.shape.length

/-- Dimensions with the same name have the same size. -/
def Consistent (as : List (Arg α)) : Prop := ∀ n d e, HasDim as n d → HasDim as n e → d = e

/-- The indices used as arguments are names of dimensions of arguments; no argument is open. -/
def Closed (as : List (Arg α)) : Prop := (∀ n, Arg.name n ∈ as → ∃ d, HasDim as n d) ∧ Arg.open_ ∉ as

def InRange : List Nat → List Nat → Prop
  | [], [] => True
  | d :: ds, i :: ix => i < d ∧ InRange ds ix
  | _, _ => False

/-- The shape of an argument without its named dimensions. -/
def argShape : Arg α → List Nat
  | .tensor v => v.shape
  | _ => []

/-- The entries of an argument for given values of the names. -/
def argAt (ofNat : Nat → α) (env : Name → Nat) : Arg α → Arr α
  | .tensor v => ⟨v.shape, den v env⟩
  | .name n => ⟨[], fun _ => ofNat (env n)⟩
  | .open_ => ⟨[], fun _ => ofNat 0⟩

/-! ## Proofs -/

theorem mem_entries (n : Name) (d : Nat) : ∀ as : List (Arg α), (d, some n) ∈ entries as ↔ HasDim as n d
  | [] => by simp [entries, HasDim]
  | .tensor v :: as => by
    simp only [entries, List.mem_append, mem_entries n d as, HasDim, List.mem_cons]
    constructor
    · rintro (h | ⟨w, h1, h2⟩)
      · exact ⟨v, Or.inl rfl, h⟩
      · exact ⟨w, Or.inr h1, h2⟩
    · rintro ⟨w, h1 | h1, h2⟩
      · cases h1; exact Or.inl h2
      · exact Or.inr ⟨w, h1, h2⟩
  | .name m :: as => by simp [entries, mem_entries n d as, HasDim]
  | .open_ :: as => by simp [entries, mem_entries n d as, HasDim]

theorem sizes_spec (as : List (Arg α)) (h : Consistent as) : ∃ s, sizes as = some s ∧ (s.map Prod.fst).Nodup ∧
    ∀ n d, (n, d) ∈ s ↔ HasDim as n d := by
  obtain ⟨s, h1, h2, h3⟩ := sizesLoop_spec (entries as) [] (by simp)
    (fun n d e hd he => h n d e (by simpa [mem_entries] using hd) (by simpa [mem_entries] using he))
  exact ⟨s, h1, h2, fun n d => by rw [h3]; simp [mem_entries]⟩

theorem InRange.length : ∀ {ds ix : List Nat}, InRange ds ix → ix.length = ds.length
  | [], [], _ => rfl
  | _ :: _, _ :: _, h => by simp [InRange.length h.2]

theorem InRange.pos : ∀ {ds ix : List Nat}, InRange ds ix → ravel ds ix < prod ds
  | [], [], _ => by simp [ravel, prod]
  | d :: ds, i :: ix, h => by
    have := InRange.pos h.2
    simp only [ravel, prod]
    calc i * prod ds + ravel ds ix < i * prod ds + prod ds := by omega
      _ = (i + 1) * prod ds := by rw [Nat.add_mul, Nat.one_mul]
      _ ≤ d * prod ds := Nat.mul_le_mul_right _ h.1

theorem unravel_ravel : ∀ {ds ix : List Nat}, InRange ds ix → unravel ds (ravel ds ix) = ix
  | [], [], _ => rfl
  | d :: ds, i :: ix, h => by
    have h1 := InRange.pos h.2
    simp only [ravel, unravel]
    have hp : 0 < prod ds := by omega
    rw [Nat.add_comm, Nat.add_mul_div_right _ _ hp, Nat.add_mul_mod_self_right, Nat.div_eq_of_lt h1, Nat.mod_eq_of_lt h1,
      unravel_ravel h.2, Nat.zero_add]

theorem prod_append : ∀ a b, prod (a ++ b) = prod a * prod b
  | [], b => by simp [prod]
  | d :: a, b => by simp [prod, prod_append a b, Nat.mul_assoc]

theorem ravel_append : ∀ {ds ix : List Nat} (es jx : List Nat), InRange ds ix →
    ravel (ds ++ es) (ix ++ jx) = ravel ds ix * prod es + ravel es jx
  | [], [], es, jx, _ => by simp [ravel]
  | d :: ds, i :: ix, es, jx, h => by
    simp only [List.cons_append, ravel, ravel_append es jx h.2, prod_append, Nat.add_mul, Nat.mul_assoc]
    omega

theorem inRange_append : ∀ {ds ix es jx : List Nat}, InRange ds ix → InRange es jx → InRange (ds ++ es) (ix ++ jx)
  | [], [], _, _, _, h => h
  | _ :: _, _ :: _, _, _, h1, h2 => ⟨h1.1, inRange_append h1.2 h2⟩

/-- The ranges, flattened, at the position of an index. -/
theorem inds_at : ∀ (pre rest js ks : List Nat), InRange pre js → InRange rest ks →
    ((inds (pre ++ rest) rest).map fun t => (reshape t [prod (pre ++ rest)]).get [ravel (pre ++ rest) (js ++ ks)]) = ks
  | pre, [], js, [], _, _ => rfl
  | pre, d :: rest, js, k :: ks, h1, h2 => by
    have hr := inRange_append h1 h2
    have hl := InRange.length h2.2
    have hj := InRange.length h1
    have e1 : (reshape (expand (range d rest.length) (pre ++ d :: rest)) [prod (pre ++ d :: rest)]).get
        [ravel (pre ++ d :: rest) (js ++ k :: ks)] = k := by
      simp only [reshape, expand, range, ravel, prod, Nat.mul_one, Nat.add_zero]
      rw [unravel_ravel hr]
      have : (js ++ k :: ks).length - (d :: List.replicate rest.length 1).length = js.length := by simp [hl]
      rw [this, List.drop_left]
      simp only [List.zipWith_cons_cons, List.headD_cons]
      split
      · have := h2.1; omega
      · rfl
    have ih := inds_at (pre ++ [d]) rest (js ++ [k]) ks (inRange_append h1 ⟨h2.1, trivial⟩) h2.2
    simp only [List.append_assoc, List.cons_append, List.nil_append] at ih
    simp only [inds, List.map_cons, e1, ih]

theorem assign_map (env : Name → Nat) (n : Name) : ∀ ns : List Name, n ∈ ns → assign ns (ns.map env) n = env n
  | m :: ns, h => by
    simp only [List.map_cons, assign]
    by_cases hn : n = m
    · subst hn; simp
    · rw [if_neg hn]
      exact assign_map env n ns ((List.mem_cons.1 h).resolve_left hn)

theorem coords_congr : ∀ (ds : List (Option Name)) (env env' : Name → Nat) (ix : List Nat),
    (∀ n, some n ∈ ds → env n = env' n) → coords ds env ix = coords ds env' ix
  | [], _, _, _, _ => rfl
  | none :: ds, env, env', ix, h => by
    simp only [coords]
    rw [coords_congr ds env env' ix.tail fun n hn => h n (List.mem_cons_of_mem _ hn)]
  | some m :: ds, env, env', ix, h => by
    simp only [coords]
    rw [coords_congr ds env env' ix fun n hn => h n (List.mem_cons_of_mem _ hn), h m List.mem_cons_self]

theorem mem_zip_of_mem : ∀ (sh : List Nat) (ds : List (Option Name)) (n : Name), ds.length = sh.length → some n ∈ ds →
    ∃ d, (d, some n) ∈ sh.zip ds
  | [], [], _, _, h => by simp at h
  | d :: sh, e :: ds, n, hl, h => by
    rcases List.mem_cons.1 h with h | h
    · subst h; exact ⟨d, by simp⟩
    · obtain ⟨d', h'⟩ := mem_zip_of_mem sh ds n (by simpa using hl) h
      exact ⟨d', by simp [h']⟩

theorem coords_named : ∀ (ns : List Name) (env : Name → Nat) (ix : List Nat),
    coords (ns.map some ++ List.replicate ix.length none) env ix = ns.map env ++ ix
  | [], env, ix => by
    simp only [List.map_nil, List.nil_append]
    induction ix with
    | nil => rfl
    | cons i ix ih => simp [List.replicate_succ, coords, ih]
  | n :: ns, env, ix => by simp [coords, coords_named ns env ix]

theorem zip_append_named : ∀ (s : List (Name × Nat)) (out : List Nat) (n : Name) (d : Nat),
    (d, some n) ∈ (s.map Prod.snd ++ out).zip (s.map (fun p => some p.1) ++ List.replicate out.length none) ↔ (n, d) ∈ s
  | [], out, n, d => by
    simp only [List.map_nil, List.nil_append, List.not_mem_nil, iff_false]
    intro h
    have := List.of_mem_zip h
    simp at this
  | (m, e) :: s, out, n, d => by
    simp only [List.map_cons, List.cons_append, List.zip_cons_cons, List.mem_cons, zip_append_named s out n d,
      Prod.mk.injEq, Option.some.injEq]
    constructor
    · rintro (⟨h1, h2⟩ | h)
      · exact Or.inl ⟨h2, h1⟩
      · exact Or.inr h
    · rintro (⟨h1, h2⟩ | h)
      · exact Or.inl ⟨h2, h1⟩
      · exact Or.inr h

theorem visible_named : ∀ (s : List (Name × Nat)) (out : List Nat),
    visible (s.map Prod.snd ++ out) (s.map (fun p => some p.1) ++ List.replicate out.length none) = out
  | [], out => by
    induction out with
    | nil => rfl
    | cons d out ih => simpa [List.replicate_succ, visible] using ih
  | (m, e) :: s, out => by simp [visible, visible_named s out]

theorem inst_eq_argAt (ofNat : Nat → α) (env env' : Name → Nat) (a : Arg α)
    (h : ∀ n, (Arg.name n = a ∨ ∃ v, a = .tensor v ∧ some n ∈ v.dims) → env n = env' n) :
    inst ofNat env a = argAt ofNat env' a := by
  cases a with
  | tensor v =>
    simp only [inst, argAt, Arr.mk.injEq, true_and]
    funext ix
    rw [den, coords_congr v.dims env env' ix fun n hn => h n (Or.inr ⟨v, rfl, hn⟩)]
  | name n => simp [inst, argAt, h n (Or.inl rfl)]
  | open_ => rfl

theorem inst_shape (ofNat : Nat → α) (env : Name → Nat) (a : Arg α) : (inst ofNat env a).shape = argShape a := by
  cases a <;> rfl

theorem inRange_sizes (env : Name → Nat) : ∀ s : List (Name × Nat), (∀ n d, (n, d) ∈ s → env n < d) →
    InRange (s.map Prod.snd) ((s.map Prod.fst).map env)
  | [], _ => trivial
  | (n, d) :: s, h => ⟨h n d List.mem_cons_self, inRange_sizes env s fun n d hd => h n d (List.mem_cons_of_mem _ hd)⟩

/-- **C70.** An operation on tensors with named dimensions has all their names and gives, for all values of the names, what
the function gives for the entries at these values. -/
theorem C70_pointwise (ofNat : Nat → α) (f : Fn α) (as : List (Arg α)) (hr : Ranked as) (hc : Consistent as)
    (hcl : Closed as) (hn : ∃ n d, HasDim as n d) (out : List Nat) (hf : f.shape (as.map argShape) = some out) :
    ∃ w, apply ofNat f as = .ok w ∧ w.Wf ∧ w.shape = out ∧ (∀ n d, Occurs w n d ↔ HasDim as n d) ∧
      ∀ env ix, (∀ n d, HasDim as n d → env n < d) → InRange out ix →
        den w env ix = f.val (as.map (argAt ofNat env)) ix := by
  obtain ⟨s, h1, h2, h3⟩ := sizes_spec as hc
  have hs : (!s.isEmpty) = true := by
    obtain ⟨n, d, h⟩ := hn
    have := (h3 n d).2 h
    cases s with
    | nil => simp at this
    | cons => rfl
  have hcs : as.all (closed s) = true := by
    rw [List.all_eq_true]
    intro a ha
    cases a with
    | tensor v => rfl
    | name n =>
      obtain ⟨d, hd⟩ := hcl.1 n ha
      simp only [closed, List.contains_iff_mem]
      exact List.mem_map.2 ⟨(n, d), (h3 n d).2 hd, rfl⟩
    | open_ => exact absurd ha hcl.2
  have hsh : f.shape (as.map fun a => (inst ofNat (fun _ => 0) a).shape) = some out := by
    simpa only [inst_shape] using hf
  have happ : apply ofNat f as = partialEval ofNat f s as := by simp only [apply, h1, hs, hcs, Bool.and_self, if_true]
  rw [happ]
  simp only [partialEval, hsh]
  refine ⟨_, rfl, ?_, ?_, ?_, ?_⟩
  · constructor
    · simp [reshape]
    · intro n d e hd he
      simp only [Occurs, reshape, List.tail_cons, zip_append_named] at hd he
      exact hc n d e ((h3 n d).1 hd) ((h3 n e).1 he)
  · simp only [Val.shape, reshape, List.tail_cons, visible_named]
  · intro n d
    simp only [Occurs, reshape, List.tail_cons, zip_append_named, h3]
  · intro env ix henv hix
    have hin := inRange_sizes env s fun n d hd => henv n d ((h3 n d).1 hd)
    have hl := InRange.length hix
    have hmap : (s.map fun p => some p.1) = (s.map Prod.fst).map some := by simp
    simp only [den, List.tail_cons, hmap]
    rw [← hl, coords_named]
    simp only [reshape]
    have hall := inRange_append hin hix
    rw [ravel_append _ _ hin]
    have hflat : InRange (prod (s.map Prod.snd) :: out)
        (ravel (s.map Prod.snd) ((s.map Prod.fst).map env) :: ix) := ⟨InRange.pos hin, hix⟩
    have hu := unravel_ravel hflat
    simp only [ravel] at hu
    rw [hu]
    simp only [List.headD_cons, List.tail_cons]
    congr 1
    apply List.map_congr_left
    intro a ha
    apply inst_eq_argAt
    intro n hna
    have hin' := inds_at [] (s.map Prod.snd) [] ((s.map Prod.fst).map env) trivial hin
    simp only [List.nil_append, reshape] at hin'
    simp only [List.map_map] at hin' ⊢
    have hE : (List.map ((fun t => t.get [ravel (s.map Prod.snd) (s.map (env ∘ Prod.fst))]) ∘ fun t =>
        (⟨[prod (s.map Prod.snd)], fun ix => t.get (unravel t.shape (ravel [prod (s.map Prod.snd)] ix))⟩ : Arr Nat))
        (inds (s.map Prod.snd) (s.map Prod.snd))) = s.map (env ∘ Prod.fst) := hin'
    rw [hE, ← List.map_map]
    apply assign_map
    have : ∃ d, HasDim as n d := by
      rcases hna with h | ⟨v, rfl, hv⟩
      · subst h; exact hcl.1 n ha
      · obtain ⟨d, hd⟩ := mem_zip_of_mem v.arr.shape v.dims n (hr v ha) hv
        exact ⟨d, v, ha, hd⟩
    obtain ⟨d, hd⟩ := this
    exact List.mem_map.2 ⟨(n, d), (h3 n d).2 hd, rfl⟩

/-- **C70.** Dimensions of different sizes with the same name: `ValueError`. -/
theorem C70_inconsistent (ofNat : Nat → α) (f : Fn α) (as : List (Arg α)) (h : ¬ Consistent as) :
    apply ofNat f as = .error .value := by
  cases hs : sizes as with
  | none => simp only [apply, hs]
  | some s =>
    exfalso
    apply h
    intro n d e hd he
    exact sizesLoop_functional (entries as) [] s (by simp) hs n d e (Or.inr ((mem_entries n d as).2 hd))
      (Or.inr ((mem_entries n e as).2 he))

/-- **C70.** Tensors without named dimensions: the function itself. -/
theorem C70_plain (ofNat : Nat → α) (f : Fn α) (xs : List (Arr α)) (out : List Nat)
    (hf : f.shape (xs.map Arr.shape) = some out) :
    apply ofNat f (xs.map fun x => .tensor (plain x)) = .ok (plain ⟨out, f.val xs⟩) := by
  have hz : ∀ sh : List Nat, ∀ sz r, sizesLoop sz (sh.zip (List.replicate sh.length none) ++ r) = sizesLoop sz r := by
    intro sh
    induction sh with
    | nil => intro sz r; rfl
    | cons d sh ih => intro sz r; simp [List.replicate_succ, sizesLoop, ih]
  have hs : ∀ ys : List (Arr α), sizes (ys.map fun x => (Arg.tensor (plain x) : Arg α)) = some [] := by
    intro ys
    unfold sizes
    induction ys with
    | nil => rfl
    | cons y ys ih =>
      simp only [List.map_cons, entries, plain]
      rw [hz]
      exact ih
  have hd : ∀ ys : List (Arr α), direct (ys.map fun x => (Arg.tensor (plain x) : Arg α)) = some ys := by
    intro ys
    induction ys with
    | nil => rfl
    | cons y ys ih =>
      have : (plain y).dims.all Option.isNone = true := by simp [plain]
      simp only [List.map_cons, direct, ih, this]
      rfl
  simp only [apply, hs, List.isEmpty_nil, Bool.not_true, Bool.false_and, Bool.false_eq_true, if_false, hd, hf]

/-- **C70.** An argument with a free variable without size: the operation stays a term. -/
theorem C70_open (ofNat : Nat → α) (f : Fn α) (as : List (Arg α)) (hc : Consistent as) (h : ¬ Closed as) :
    apply ofNat f as = .error .notHandled := by
  obtain ⟨s, h1, h2, h3⟩ := sizes_spec as hc
  have hex : ∃ a ∈ as, closed s a = false ∧ ∀ v, a ≠ .tensor v := by
    by_cases ho : Arg.open_ ∈ as
    · exact ⟨_, ho, rfl, fun v => by simp⟩
    · have : ¬ ∀ n, Arg.name n ∈ as → ∃ d, HasDim as n d := fun hh => h ⟨hh, ho⟩
      simp only [not_forall] at this
      obtain ⟨n, hn, hd⟩ := this
      refine ⟨_, hn, ?_, fun v => by simp⟩
      simp only [closed, ← Bool.not_eq_true, List.contains_iff_mem, List.mem_map, not_exists, not_and]
      rintro ⟨m, d⟩ hm rfl
      exact hd ⟨d, (h3 m d).1 hm⟩
  obtain ⟨a, ha, hca, ht⟩ := hex
  have e1 : as.all (closed s) = false := by
    rw [← Bool.not_eq_true, List.all_eq_true]
    intro hh
    rw [hh a ha] at hca
    cases hca
  have e2 : direct as = none := by
    clear e1 h h1 h2 h3 hc hca
    induction as with
    | nil => simp at ha
    | cons b as ih =>
      cases b with
      | tensor v =>
        have ha' : a ∈ as := (List.mem_cons.1 ha).resolve_left (ht v)
        simp only [direct, ih ha']
        cases v.dims.all Option.isNone <;> rfl
      | name n => rfl
      | open_ => rfl
  simp only [apply, h1, e1, Bool.and_false, Bool.false_eq_true, if_false, e2]

theorem direct_plain (as : List (Arg α)) (h : ∀ a ∈ as, ∃ v, a = .tensor v ∧ v.dims.all Option.isNone = true ∧ v.arr.shape = v.shape) :
    ∃ xs, direct as = some xs ∧ xs.map Arr.shape = as.map argShape := by
  induction as with
  | nil => exact ⟨[], rfl, rfl⟩
  | cons a as ih =>
    obtain ⟨xs, h1, h2⟩ := ih fun a ha => h a (List.mem_cons_of_mem _ ha)
    obtain ⟨v, rfl, h3, h4⟩ := h a List.mem_cons_self
    refine ⟨v.arr :: xs, ?_, ?_⟩
    · simp only [direct, h1, h3]
    · simp only [List.map_cons, h2, argShape, h4]

theorem all_plain (as : List (Arg α)) (hr : Ranked as) (hcl : Closed as) (h : ¬ ∃ n d, HasDim as n d) :
    ∀ a ∈ as, ∃ v, a = .tensor v ∧ v.dims.all Option.isNone = true ∧ v.arr.shape = v.shape := by
  intro a ha
  cases a with
  | tensor v =>
    have hno : ∀ n, some n ∉ v.dims := fun n hn => by
      obtain ⟨d, hd⟩ := mem_zip_of_mem v.arr.shape v.dims n (hr v ha) hn
      exact h ⟨n, d, v, ha, hd⟩
    have hd : v.dims = List.replicate v.arr.shape.length none := by
      rw [← hr v ha]
      exact List.eq_replicate_iff.2 ⟨rfl, fun b hb => by
        cases b with
        | none => rfl
        | some n => exact absurd hb (hno n)⟩
    refine ⟨v, rfl, ?_, ?_⟩
    · rw [hd]
      simp
    · rw [Val.shape, hd, visible_all]
  | name n =>
    obtain ⟨d, hd⟩ := hcl.1 n ha
    exact absurd ⟨n, d, hd⟩ h
  | open_ => exact absurd ha hcl.2

/-- **C70.** What the function raises, the operation raises. -/
theorem C70_raises (ofNat : Nat → α) (f : Fn α) (as : List (Arg α)) (hr : Ranked as) (hc : Consistent as) (hcl : Closed as)
    (hf : f.shape (as.map argShape) = none) : apply ofNat f as = .error .runtime := by
  obtain ⟨s, h1, h2, h3⟩ := sizes_spec as hc
  by_cases hn : ∃ n d, HasDim as n d
  · have hs : (!s.isEmpty) = true := by
      obtain ⟨n, d, h⟩ := hn
      have := (h3 n d).2 h
      cases s with
      | nil => simp at this
      | cons => rfl
    have hcs : as.all (closed s) = true := by
      rw [List.all_eq_true]
      intro a ha
      cases a with
      | tensor v => rfl
      | name n =>
        obtain ⟨d, hd⟩ := hcl.1 n ha
        simp only [closed, List.contains_iff_mem]
        exact List.mem_map.2 ⟨(n, d), (h3 n d).2 hd, rfl⟩
      | open_ => exact absurd ha hcl.2
    have hsh : f.shape (as.map fun a => (inst ofNat (fun _ => 0) a).shape) = none := by
      simpa only [inst_shape] using hf
    simp only [apply, h1, hs, hcs, Bool.and_self, if_true, partialEval, hsh]
  · have hs : s = [] := by
      cases s with
      | nil => rfl
      | cons p s => exact absurd ⟨p.1, p.2, (h3 p.1 p.2).1 List.mem_cons_self⟩ hn
    obtain ⟨xs, h4, h5⟩ := direct_plain as (all_plain as hr hcl hn)
    rw [← h5] at hf
    simp only [apply, h1, hs, List.isEmpty_nil, Bool.not_true, Bool.false_and, Bool.false_eq_true, if_false, h4, hf]

/-! ## Examples -/

/-- Addition of tensors of the same shape. -/
def add : Fn Nat where
  shape
    | [a, b] => if a = b then some a else none
    | _ => none
  val
    | [a, b], ix => a.get ix + b.get ix
    | _, _ => 0

def x : Val Nat := ⟨⟨[2, 3], fun ix => 10 * ix.getD 0 0 + ix.getD 1 0⟩, [some "i", none]⟩
def y : Val Nat := ⟨⟨[3, 4], fun ix => 100 * ix.getD 0 0 + 1000 * ix.getD 1 0⟩, [none, some "j"]⟩

example : ∃ w, apply id add [.tensor x, .tensor y] = .ok w ∧ w.dims = [some "i", some "j", none] ∧
    w.arr.shape = [2, 4, 3] ∧ w.arr.get [1, 3, 2] = 3212 := ⟨_, rfl, rfl, rfl, by decide⟩

example : Ranked [.tensor x, .tensor y] ∧ Consistent [.tensor x, .tensor y] ∧ Closed [.tensor x, .tensor y] ∧
    ∃ n d, HasDim [.tensor x, .tensor y] n d := by
  refine ⟨?_, ?_, ?_, "i", 2, x, by simp, by simp [Occurs, x]⟩
  · intro v h
    simp only [List.mem_cons, Arg.tensor.injEq, List.not_mem_nil, or_false] at h
    rcases h with rfl | rfl <;> rfl
  · intro n d e hd he
    simp only [HasDim, List.mem_cons, Arg.tensor.injEq, List.not_mem_nil, or_false] at hd he
    obtain ⟨v, rfl | rfl, h1⟩ := hd <;> obtain ⟨w, rfl | rfl, h2⟩ := he <;>
      simp [Occurs, x, y] at h1 h2 <;> grind
  · constructor <;> simp

example : apply id add [.tensor x, .tensor ⟨⟨[3, 3], fun _ => 0⟩, [some "i", none]⟩] = .error .value := rfl

example : apply id add [.tensor x, .name "k"] = .error .notHandled := rfl

end Verif.Indexed.Pointwise
