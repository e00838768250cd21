import Verif.Indexed.Shim

/-!
# C75: distributions with named dimensions

Model of `handlers/numpyro.py`: `_bind_dims_distribution` 106-145, `_broadcast_to_named` 148-153 and the methods `batch_shape`,
`sample`, `log_prob`, `mean`, `enumerate_support`, `entropy` and `expand` of `_DistributionTerm` 249-378.

Simplifications: the dimensions of events are part of the entries of tensors, so that only batch dimensions are seen.
A distribution is a function of the entries of its parameters. Its parameters are arrays or numbers; distributions made of
distributions are left out. Operations on arrays act for each value of the remaining names (C70). numpy's rules of
broadcasting are taken from numpy.
-/

namespace Verif.Indexed.Dist

open Verif.Indexed.Named Verif.Indexed.Shim

variable {α β : Type}

/-! ## numpy -/

/-- Sizes of a dimension of two arrays, broadcast. -/
def bdim (d e : Nat) : Option Nat := if d = e then some d else if d = 1 then some e else if e = 1 then some d else none

/-- Shapes, last dimension first, broadcast. -/
def brev : List Nat → List Nat → Option (List Nat)
  | [], ys => some ys
  | xs, [] => some xs
  | x :: xs, y :: ys =>
    match bdim x y, brev xs ys with
    | some z, some zs => some (z :: zs)
    | _, _ => none

/-- `broadcast_shapes(x, y)`; `none` for ValueError. -/
def bcast (x y : List Nat) : Option (List Nat) := (brev x.reverse y.reverse).map List.reverse

/-- `broadcast_shapes(*shapes)`. -/
def bcastAll : List Nat → List (List Nat) → Option (List Nat)
  | acc, [] => some acc
  | acc, x :: xs =>
    match bcast acc x with
    | none => none
    | some acc => bcastAll acc xs

/-- The entry of an array that is broadcast. -/
def at_ (shape : List Nat) (get : List Nat → α) (ix : List Nat) : α :=
  get (squash shape (ix.drop (ix.length - shape.length)))

/-- A parameter of a distribution of numpyro. -/
abbrev Param (α : Type) := Arr α

/-- `batch_shape`. -/
def batchShape (ps : List (Param α)) : Option (List Nat) := bcastAll [] (ps.map Arr.shape)

/-- The parameters for one entry. -/
def entries (ps : List (Param α)) (ix : List Nat) : List α := ps.map (fun p => at_ p.shape p.get ix)

/-! ## Operations on arrays with names -/

/-- An operation of arrays for each value of the names. -/
def mapArr (v : Val α) (shape : List Nat) (g : (List Nat → α) → List Nat → β) : Except Err (Val β) :=
  match v.sizes with
  | none => .error .value
  | some s =>
    .ok
      { arr :=
          { shape := s.map Prod.snd ++ shape
            get := fun ix => g (den v (upd (fun _ => 0) (s.map Prod.fst) (ix.take s.length))) (ix.drop s.length) }
        dims := s.map (fun p => some p.1) ++ List.replicate shape.length none }

/-- An array or a number. -/
inductive Arg (α : Type) where
  | arr (v : Val α)
  | other (x : α)

/-- `sizesof` of the distribution. -/
def sizesOf (args : List (Arg α)) : Option (List (Name × Nat)) :=
  sizesLoop [] (args.flatMap fun
    | .arr v => v.arr.shape.zip v.dims
    | .other _ => [])

/-- `bind_dims(_broadcast_to_named(a, sizes), *sizes)` (148-153, 109-122). `order` is the order of iteration of a set. -/
def toPositional (order : List Name → List Name) (sizes : List (Name × Nat)) (a : Val α) : Except Err (Val α) :=
  match a.sizes with
  | none => .error .value
  | some ex =>
    let missing := order ((sizes.map Prod.fst).filter (fun n => !(ex.map Prod.fst).contains n))
    match expand a (missing.map (fun n => (sizes.lookup n).getD 0) ++ a.shape) with
    | .error e => .error e
    | .ok t =>
      match unbind t missing with
      | .error e => .error e
      | .ok t => Named.bind t (sizes.map Prod.fst)

/-- An array without names. -/
def asArr (v : Val α) : Arr α := ⟨v.shape, den v (fun _ => 0)⟩

/-- Parameters of the distribution bound to all its names (`_pos_base_dist`, 222-225). -/
def posArgs (order : List Name → List Name) (sizes : List (Name × Nat)) : List (Arg α) → Except Err (List (Param α))
  | [] => .ok []
  | .other x :: r =>
    match posArgs order sizes r with
    | .error e => .error e
    | .ok ps => .ok (⟨[], fun _ => x⟩ :: ps)
  | .arr v :: r =>
    match toPositional order sizes v with
    | .error e => .error e
    | .ok p =>
      match posArgs order sizes r with
      | .error e => .error e
      | .ok ps => .ok (asArr p :: ps)

/-- `_reindex_sample(value, sample_shape)` (269-272). -/
def reindex (names : List Name) (sample : Nat) (v : Val β) : Except Err (Val β) :=
  getitem v (List.replicate sample none ++ names.map some)

/-- `_pos_base_dist` and its batch shape, with the sizes of the names. -/
def posDist (order : List Name → List Name) (args : List (Arg α)) :
    Except Err (List (Name × Nat) × List (Param α) × List Nat) :=
  match sizesOf args with
  | none => .error .value
  | some sizes =>
    match posArgs order sizes args with
    | .error e => .error e
    | .ok ps =>
      match batchShape ps with
      | none => .error .value
      | some b => .ok (sizes, ps, b)

/-- `batch_shape` (250-253). -/
def termBatchShape (order : List Name → List Name) (args : List (Arg α)) : Except Err (List Nat) :=
  match posDist order args with
  | .error e => .error e
  | .ok (sizes, _, b) => .ok (b.drop sizes.length)

/-- `sample(key, sample_shape)` (284-290), `mean` (320-326) with no sample shape: `draw` gives the value for the parameters of
an entry and the place of the entry. -/
def termSample (order : List Name → List Name) (draw : List α → List Nat → β) (args : List (Arg α)) (sample : List Nat) :
    Except Err (Val β) :=
  match posDist order args with
  | .error e => .error e
  | .ok (sizes, ps, b) =>
    reindex (sizes.map Prod.fst) sample.length
      (plain ⟨sample ++ b, fun ix => draw (entries ps (ix.drop sample.length)) ix⟩)

/-- `jnp.permute_dims(v, perm)`. -/
def permuteDims (v : Val α) (perm : List Nat) : Except Err (Val α) :=
  mapArr v (perm.map (v.shape.getD · 0))
    (fun h ix => h ((List.range v.shape.length).map (fun j => ix.getD (perm.idxOf j) 0)))

/-- `log_prob(value)` (293-316); `f` is the log density for the parameters and the value of an entry. -/
def termLogProb (order : List Name → List Name) (f : List α → α → β) (args : List (Arg α)) (value : Val α) :
    Except Err (Val β) :=
  match posDist order args with
  | .error e => .error e
  | .ok (sizes, ps, b) =>
    let n := (b.drop sizes.length).length
    let sample := if n = 0 then value.shape.length else value.shape.length - n
    match toPositional order sizes value with
    | .error e => .error e
    | .ok v =>
      let rank := v.shape.length
      let named := sizes.length
      let dims := List.range rank
      let perm := (dims.drop named).take sample ++ dims.take named ++ dims.drop (named + sample)
      match permuteDims v perm with
      | .error e => .error e
      | .ok v =>
        match bcast v.shape b with
        | none => .error .value
        | some out =>
          match mapArr v out (fun h ix => f (entries ps ix) (at_ v.shape h ix)) with
          | .error e => .error e
          | .ok w => reindex (sizes.map Prod.fst) sample w

/-- `enumerate_support(True)` (346-349) of a discrete distribution: `support` gives the values for parameters, `k` of them. -/
def termEnumerate (order : List Name → List Name) (k : Nat) (support : List α → Nat → β) (args : List (Arg α)) :
    Except Err (Val β) :=
  match posDist order args with
  | .error e => .error e
  | .ok (sizes, ps, b) =>
    reindex (sizes.map Prod.fst) 0 (plain ⟨k :: b, fun ix => support (entries ps ix.tail) (ix.headD 0)⟩)

/-- `entropy()` (352-355). -/
def termEntropy (order : List Name → List Name) (h : List α → β) (args : List (Arg α)) : Except Err (Val β) :=
  match posDist order args with
  | .error e => .error e
  | .ok (_, ps, b) => .ok (plain ⟨b, fun ix => h (entries ps ix)⟩)

/-- `expand_arg(a, batch_shape)` (366-369) with `expand_to_batch_shape` (156-188): `rank` is `len(self.batch_shape)`. -/
def expandArg (rank : Nat) (shape : List Nat) : Arg α → Except Err (Arg α)
  | .other x => .ok (.other x)
  | .arr v =>
    -- AssertionError
    if v.shape.length < rank then .error .value
    else if shape.length < rank then .error .value
    else
      match bcast (v.shape.take rank) shape with
      | none => .error .value
      | some new =>
        match expand v (new ++ v.shape.drop rank) with
        | .error e => .error e
        | .ok w => .ok (.arr w)

def expandArgs (rank : Nat) (shape : List Nat) : List (Arg α) → Except Err (List (Arg α))
  | [] => .ok []
  | a :: r =>
    match expandArg rank shape a with
    | .error e => .error e
    | .ok b =>
      match expandArgs rank shape r with
      | .error e => .error e
      | .ok bs => .ok (b :: bs)

/-- `expand(batch_shape)` (362-378): the parameters of the new distribution. -/
def termExpand (order : List Name → List Name) (args : List (Arg α)) (shape : List Nat) : Except Err (List (Arg α)) :=
  match termBatchShape order args with
  | .error e => .error e
  | .ok b => if b = shape then .ok args else expandArgs b.length shape args

/-! ## Specification -/

/-- A dimension of a parameter has the name `n`. -/
def Has (args : List (Arg α)) (n : Name) (d : Nat) : Prop := ∃ v, Arg.arr v ∈ args ∧ Occurs v n d

/-- The shape of a parameter. -/
def argShape : Arg α → List Nat
  | .arr v => v.shape
  | .other _ => []

/-- Parameters of a distribution of the given batch shape; all arrays have all its dimensions. -/
structure Ok (args : List (Arg α)) (batch : List Nat) : Prop where
  wf : ∀ v, Arg.arr v ∈ args → v.Wf
  sizes : ∀ n d e, Has args n d → Has args n e → d = e
  rank : ∀ v, Arg.arr v ∈ args → v.shape.length = batch.length
  batch : bcastAll [] (args.map argShape) = some batch

/-- The parameters for given values of the names and an entry of the batch. -/
def params (args : List (Arg α)) (env : Name → Nat) (ix : List Nat) : List α :=
  args.map fun
    | .arr v => den v env (below v.shape ix)
    | .other x => x

/-- Values of the names within their dimensions. -/
def InRange (args : List (Arg α)) (env : Name → Nat) : Prop := ∀ n d, Has args n d → env n < d

/-! ## Broadcasting -/

theorem brev_append : ∀ (x y s : List Nat), x.length = y.length →
    brev (x ++ s) (y ++ s) = (brev x y).map (· ++ s) := by
  intro x
  induction x with
  | nil =>
    intro y s h
    rw [List.length_eq_zero_iff.1 h.symm]
    simp only [List.nil_append]
    induction s with
    | nil => rfl
    | cons d s ih => simp [brev, bdim] at ih ⊢; rw [ih]
  | cons a x ih =>
    intro y s h
    cases y with
    | nil => simp at h
    | cons b y =>
      simp only [List.cons_append, brev]
      rw [ih y s (by simpa using h)]
      cases bdim a b <;> cases brev x y <;> rfl

theorem brev_longer : ∀ (x y s : List Nat), x.length = y.length →
    brev (x ++ s) y = (brev x y).map (· ++ s) := by
  intro x
  induction x with
  | nil =>
    intro y s h
    rw [List.length_eq_zero_iff.1 h.symm]
    cases s <;> simp [brev]
  | cons a x ih =>
    intro y s h
    cases y with
    | nil => simp at h
    | cons b y =>
      simp only [List.cons_append, brev]
      rw [ih y s (by simpa using h)]
      cases bdim a b <;> cases brev x y <;> rfl

theorem bcast_append (s x y : List Nat) (h : x.length = y.length) :
    bcast (s ++ x) (s ++ y) = (bcast x y).map (s ++ ·) := by
  unfold bcast
  rw [List.reverse_append, List.reverse_append, brev_append _ _ _ (by simpa using h)]
  cases brev x.reverse y.reverse <;> simp

theorem bcast_longer (s x y : List Nat) (h : x.length = y.length) :
    bcast (s ++ x) y = (bcast x y).map (s ++ ·) := by
  unfold bcast
  rw [List.reverse_append, brev_longer _ _ _ (by simpa using h)]
  cases brev x.reverse y.reverse <;> simp

theorem brev_length : ∀ (x y z : List Nat), x.length = y.length → brev x y = some z → z.length = x.length := by
  intro x
  induction x with
  | nil => intro y z h hz; rw [List.length_eq_zero_iff.1 h.symm] at hz; cases hz; rfl
  | cons a x ih =>
    intro y z h hz
    cases y with
    | nil => simp at h
    | cons b y =>
      simp only [brev] at hz
      cases hb : bdim a b with
      | none => rw [hb] at hz; cases hz
      | some c =>
        rw [hb] at hz
        cases hr : brev x y with
        | none => rw [hr] at hz; cases hz
        | some zs =>
          rw [hr] at hz
          cases hz
          simp [ih y zs (by simpa using h) hr]

theorem bcast_length {x y z : List Nat} (h : x.length = y.length) (hz : bcast x y = some z) : z.length = x.length := by
  unfold bcast at hz
  cases hr : brev x.reverse y.reverse with
  | none => rw [hr] at hz; cases hz
  | some zs =>
    rw [hr] at hz
    cases hz
    have := brev_length _ _ _ (by simpa using h) hr
    simpa using this

theorem bcast_nil_left (y : List Nat) : bcast [] y = some y := by simp [bcast, brev]

theorem bcast_nil_right (x : List Nat) : bcast x [] = some x := by
  unfold bcast
  cases h : x.reverse with
  | nil =>
    have : x = [] := by simpa using h
    subst this
    rfl
  | cons a r =>
    have hx : x = (a :: r).reverse := by rw [← h]; simp
    simp [brev, hx]

/-! ## Indices -/

theorem squash_length : ∀ (sh ix : List Nat), ix.length = sh.length → (squash sh ix).length = sh.length := by
  intro sh ix h
  rw [squash_eq, List.length_zipWith, h]
  omega

theorem squash_append : ∀ (s x js ix : List Nat), js.length = s.length →
    squash (s ++ x) (js ++ ix) = squash s js ++ squash x ix := by
  intro s
  induction s with
  | nil => intro x js ix h; rw [List.length_eq_zero_iff.1 h]; rfl
  | cons d s ih =>
    intro x js ix h
    cases js with
    | nil => simp at h
    | cons j js => simp [squash, ih x js ix (by simpa using h)]

theorem squash_within {s js : List Nat} (h : Within s js) : squash s js = js := by
  rw [squash_eq]
  exact zipWith_within _ _ h

theorem squash_idem : ∀ (s ix : List Nat), squash s (squash s ix) = squash s ix := by
  intro s
  induction s with
  | nil => intro ix; simp [squash]
  | cons d s ih =>
    intro ix
    cases ix with
    | nil => simp [squash]
    | cons i ix =>
      simp only [squash, ih, List.cons.injEq, and_true]
      split <;> rfl

theorem below_eq {s ix : List Nat} (h : ix.length = s.length) : below s ix = squash s ix := by
  unfold below
  rw [h, Nat.sub_self, List.drop_zero, squash_eq]

theorem at_eq {s ix : List Nat} (get : List Nat → α) (h : ix.length = s.length) : at_ s get ix = get (squash s ix) := by
  unfold at_
  rw [h, Nat.sub_self, List.drop_zero]

theorem at_drop {s js ix : List Nat} (get : List Nat → α) (h : ix.length = s.length) :
    at_ s get (js ++ ix) = get (squash s ix) := by
  unfold at_
  have : (js ++ ix).length - s.length = js.length := by simp [h]
  rw [this, List.drop_left]

/-! ## Operations -/

theorem mapArr_spec {v : Val α} (hv : v.Wf) (shape : List Nat) (g : (List Nat → α) → List Nat → β) :
    ∃ w, mapArr v shape g = .ok w ∧ w.Wf ∧ w.shape = shape ∧ (∀ n d, Occurs w n d ↔ Occurs v n d) ∧
      ∀ env ix, ix.length = shape.length → den w env ix = g (den v env) ix := by
  obtain ⟨s, h1, h2, h3⟩ := hv.sizesOf
  unfold mapArr
  rw [h1]
  simp only
  have e : s.map (fun p => some p.1) = (s.map Prod.fst).map some := by simp
  have hocc : ∀ (g : List Nat → β) n d, Occurs (⟨⟨s.map Prod.snd ++ shape, g⟩,
      s.map (fun p => some p.1) ++ List.replicate shape.length none⟩ : Val β) n d ↔ Occurs v n d := by
    intro g n d
    rw [← h3]
    unfold Occurs
    simp only
    rw [mem_zip_pad]
    have : ∀ (s : List (Name × Nat)) (r : List Nat),
        (d, some n) ∈ (s.map Prod.snd ++ r).zip (s.map (fun p => some p.1)) ↔ (n, d) ∈ s := by
      intro s r
      induction s with
      | nil => simp
      | cons p s ih =>
        obtain ⟨m, e⟩ := p
        simp [ih]
        tauto
    exact this s _
  refine ⟨_, rfl, ⟨by simp, ?_⟩, ?_, hocc _, ?_⟩
  · intro n d e hd he
    exact hv.sizes n d e ((hocc _ n d).1 hd) ((hocc _ n e).1 he)
  · show visible (s.map Prod.snd ++ shape) (s.map (fun p => some p.1) ++ List.replicate shape.length none) = _
    rw [e, visible_names _ _ _ (by simp), visible_all]
  · intro env ix hix
    conv => lhs; unfold den
    simp only
    rw [e, coords_names]
    have hnone := coords_none env shape.length [] ix [] hix
    simp only [List.append_nil] at hnone
    rw [hnone]
    simp only [coords, List.append_nil]
    have hl : ((s.map Prod.fst).map env).length = s.length := by simp
    rw [List.take_left' hl, List.drop_left' hl]
    congr 1
    funext jx
    unfold den
    congr 1
    apply coords_congr
    intro n hn
    apply upd_map
    obtain ⟨d, hd⟩ := (occurs_iff_mem hv n).2 hn
    exact List.mem_map.2 ⟨_, (h3 _ _).2 hd, rfl⟩

/-- Sizes of some of the names. -/
theorem lookup_sizes {sizes : List (Name × Nat)} (hn : (sizes.map Prod.fst).Nodup) :
    (sizes.map Prod.fst).map (fun n => (sizes.lookup n).getD 0) = sizes.map Prod.snd := by
  apply List.ext_getElem
  · simp
  · intro i h1 h2
    simp only [List.length_map] at h2
    simp only [List.getElem_map]
    have : sizes.lookup sizes[i].1 = some sizes[i].2 := (lookup_some hn _ _).2 (List.getElem_mem h2)
    rw [this]
    rfl

/-- Binding all names of a distribution: their dimensions come first, in the order of the names. -/
theorem toPositional_spec {order : List Name → List Name} (ho : ∀ l, (order l).Perm l) {sizes : List (Name × Nat)}
    (hn : (sizes.map Prod.fst).Nodup) {a : Val α} (ha : a.Wf) (hs : ∀ n d e, (n, d) ∈ sizes → Occurs a n e → e = d) :
    ∃ p, toPositional order sizes a = .ok p ∧ p.Wf ∧ p.shape = sizes.map Prod.snd ++ a.shape ∧
      (∀ n d, Occurs p n d ↔ Occurs a n d ∧ n ∉ sizes.map Prod.fst) ∧
      ∀ env ix, ix.length = a.shape.length →
        den p env ((sizes.map Prod.fst).map env ++ ix) = den a env (below a.shape ix) := by
  obtain ⟨ex, h1, h2, h3⟩ := ha.sizesOf
  unfold toPositional
  rw [h1]
  simp only
  have hexn : ∀ n, n ∈ ex.map Prod.fst ↔ ∃ d, Occurs a n d := by
    intro n
    rw [List.mem_map]
    constructor
    · rintro ⟨⟨m, d⟩, hm, rfl⟩
      exact ⟨d, (h3 _ _).1 hm⟩
    · rintro ⟨d, hd⟩
      exact ⟨(n, d), (h3 _ _).2 hd, rfl⟩
  generalize hM : order ((sizes.map Prod.fst).filter (fun n => !(ex.map Prod.fst).contains n)) = missing
  have hperm := ho ((sizes.map Prod.fst).filter (fun n => !(ex.map Prod.fst).contains n))
  rw [hM] at hperm
  have hmem : ∀ n, n ∈ missing ↔ n ∈ sizes.map Prod.fst ∧ ¬ ∃ d, Occurs a n d := by
    intro n
    rw [hperm.mem_iff, List.mem_filter, ← hexn]
    simp
  have hmn : missing.Nodup := hperm.nodup_iff.2 (hn.filter _)
  have hexp : Expands a.shape (missing.map (fun n => (sizes.lookup n).getD 0) ++ a.shape) := by
    refine ⟨by simp, ?_⟩
    intro i d e hd he
    have hl : (missing.map (fun n => (sizes.lookup n).getD 0) ++ a.shape).length - a.shape.length =
        (missing.map (fun n => (sizes.lookup n).getD 0)).length := by simp
    rw [hl, List.getElem?_append_right (by omega), Nat.add_sub_cancel_left, hd] at he
    exact Or.inl (Option.some.inj he)
  obtain ⟨t1, e1, w1, s1, o1, once1, d1⟩ := expand_spec ha hexp
  rw [e1]
  simp only
  obtain ⟨t2, e2, w2, s2, o2, d2⟩ := C37_unbind_partial w1 missing hmn (by rw [s1]; simp)
    (fun n h d => fun hh => ((hmem n).1 h).2 ⟨d, (o1 n d).1 hh⟩)
  rw [e2]
  simp only
  have hcount : ∀ n ∈ sizes.map Prod.fst, t2.dims.count (some n) = 1 := by
    intro n h
    apply getitem_count w1 e2
    have hk : (missing.map some).count (some n) = missing.count n := by
      rw [List.count, List.countP_map]
      congr 1
    rw [hk]
    by_cases hm : n ∈ missing
    · rw [List.count_eq_one_of_mem hmn hm]
      have : t1.dims.count (some n) = 0 := by
        rw [List.count_eq_zero]
        intro hh
        obtain ⟨d, hd⟩ := (occurs_iff_mem w1 n).2 hh
        exact ((hmem n).1 hm).2 ⟨d, (o1 n d).1 hd⟩
      omega
    · rw [List.count_eq_zero.2 hm]
      have : ∃ d, Occurs a n d := by
        by_contra hc
        exact hm ((hmem n).2 ⟨h, hc⟩)
      obtain ⟨d, hd⟩ := this
      rw [count_one w1 once1 ((o1 n d).2 hd)]
  obtain ⟨p, sz, b1, b2, b3, b4, b5, b6, b7⟩ := C37_bind_partial w2 (sizes.map Prod.fst) hn hcount
  have hsh2 : t2.shape = a.shape := by
    rw [s2, s1]
    have : missing.length = (missing.map (fun n => (sizes.lookup n).getD 0)).length := by simp
    rw [this, List.drop_left]
  have hzip : ∀ n d, (d, n) ∈ t1.shape.zip missing → (n, d) ∈ sizes := by
    intro n d h
    rw [s1] at h
    obtain ⟨i, hi, hg⟩ := List.getElem_of_mem h
    rw [List.getElem_zip] at hg
    simp only [Prod.mk.injEq] at hg
    have hi2 : i < missing.length := by simp only [List.length_zip] at hi; omega
    rw [List.getElem_append_left (by simpa using hi2), List.getElem_map] at hg
    obtain ⟨hd, hnn⟩ := hg
    subst hnn
    have hms : missing[i] ∈ sizes.map Prod.fst := ((hmem _).1 (List.getElem_mem hi2)).1
    obtain ⟨⟨m, e⟩, hm, he⟩ := List.mem_map.1 hms
    simp only at he
    rw [← he] at hd ⊢
    rw [(lookup_some hn m e).2 hm] at hd
    simp only [Option.getD_some] at hd
    rw [← hd]
    exact hm
  refine ⟨p, b1, b2, ?_, ?_, ?_⟩
  · rw [b5, hsh2]
    congr 1
    apply List.ext_getElem
    · rw [b3]; simp
    · intro i h1' h2'
      simp only [List.length_map] at h2'
      have := b4 i sizes[i].1 sz[i] (by simp [h2']) (by simp [h1'])
      rw [List.getElem_map]
      rcases (o2 _ _).1 this with hh | hh
      · exact hs _ _ _ (List.getElem_mem h2') ((o1 _ _).1 hh)
      · have hin := hzip _ _ hh
        have e1 := (lookup_some hn _ _).2 hin
        have e2 : sizes.lookup sizes[i].1 = some sizes[i].2 := (lookup_some hn _ _).2 (List.getElem_mem h2')
        rw [e2] at e1
        exact (Option.some.inj e1).symm
  · intro n d
    rw [b6, o2, o1]
    constructor
    · rintro ⟨hh | hh, hnn⟩
      · exact ⟨hh, hnn⟩
      · exact absurd (List.mem_map.2 ⟨_, hzip n d hh, rfl⟩) hnn
    · rintro ⟨hh, hnn⟩
      exact ⟨Or.inl hh, hnn⟩
  · intro env ix hix
    rw [b7 env _ ix (by simp)]
    have e : den t2 (upd env (sizes.map Prod.fst) ((sizes.map Prod.fst).map env)) ix = den t2 env ix := by
      unfold den
      congr 1
      apply coords_congr
      intro n _
      by_cases hnn : n ∈ sizes.map Prod.fst
      · exact upd_map _ _ _ n hnn
      · simp only [upd, if_neg hnn]
    rw [e, d2 env ix (by rw [s1]; simp [hix]), d1 env _ (by simp [hix])]
    congr 1
    unfold below
    have hl : (missing.map env ++ ix).length - a.shape.length = (missing.map env).length := by simp [hix]
    rw [hl, List.drop_left, hix, Nat.sub_self, List.drop_zero]

/-! ## Parameters -/

theorem sizesOf_spec {args : List (Arg α)} (h : ∀ n d e, Has args n d → Has args n e → d = e) :
    ∃ s, sizesOf args = some s ∧ (s.map Prod.fst).Nodup ∧ ∀ n d, (n, d) ∈ s ↔ Has args n d := by
  have hm : ∀ n d, (d, some n) ∈ (args.flatMap fun
      | Arg.arr v => v.arr.shape.zip v.dims
      | .other _ => []) ↔ Has args n d := by
    intro n d
    rw [List.mem_flatMap]
    constructor
    · rintro ⟨a, ha, hh⟩
      cases a with
      | arr v => exact ⟨v, ha, hh⟩
      | other x => simp at hh
    · rintro ⟨v, hv, hh⟩
      exact ⟨_, hv, hh⟩
  obtain ⟨s, h1, h2, h3⟩ := sizesLoop_spec (args.flatMap fun
      | Arg.arr v => v.arr.shape.zip v.dims
      | .other _ => []) [] (by simp)
    (fun n d e hd he => h n d e (by simpa [hm] using hd) (by simpa [hm] using he))
  exact ⟨s, h1, h2, fun n d => by rw [h3]; simp [hm]⟩

theorem within_env : ∀ {sizes : List (Name × Nat)} {env : Name → Nat}, (∀ n d, (n, d) ∈ sizes → env n < d) →
    Within (sizes.map Prod.snd) ((sizes.map Prod.fst).map env) := by
  intro sizes
  induction sizes with
  | nil => intro env _; trivial
  | cons p s ih =>
    intro env h
    exact ⟨h p.1 p.2 (by simp), ih (fun n d hh => h n d (List.mem_cons_of_mem _ hh))⟩

theorem den_closed {v : Val α} (hv : v.Wf) (h : ∀ n d, ¬ Occurs v n d) (env env' : Name → Nat) (ix : List Nat) :
    den v env ix = den v env' ix := by
  unfold den
  congr 1
  apply coords_congr
  intro n hn
  obtain ⟨d, hd⟩ := (occurs_iff_mem hv n).2 hn
  exact absurd hd (h n d)

/-- The parameters of the distribution bound to all its names. -/
theorem posArgs_spec {order : List Name → List Name} (ho : ∀ l, (order l).Perm l) {sizes : List (Name × Nat)}
    (hn : (sizes.map Prod.fst).Nodup) (k : Nat) : ∀ (args : List (Arg α)), (∀ v, Arg.arr v ∈ args → v.Wf) →
    (∀ v, Arg.arr v ∈ args → v.shape.length = k) →
    (∀ n d e, (n, d) ∈ sizes → Has args n e → e = d) → (∀ n d, Has args n d → n ∈ sizes.map Prod.fst) →
    ∃ ps, posArgs order sizes args = .ok ps ∧
      ps.map Arr.shape = args.map (fun
        | .arr v => sizes.map Prod.snd ++ v.shape
        | .other _ => []) ∧
      ∀ env pre ix, (∀ n d, (n, d) ∈ sizes → env n < d) → ix.length = k →
        entries ps (pre ++ (sizes.map Prod.fst).map env ++ ix) = params args env ix := by
  intro args
  induction args with
  | nil => intro _ _ _ _; exact ⟨[], rfl, rfl, fun _ _ _ _ _ => rfl⟩
  | cons a r ih =>
    intro hw hr hs hin
    have hasr : ∀ n d, Has r n d → Has (a :: r) n d := fun n d ⟨v, hv, h⟩ => ⟨v, List.mem_cons_of_mem _ hv, h⟩
    obtain ⟨ps, e1, e2, e3⟩ := ih (fun v h => hw v (List.mem_cons_of_mem _ h))
      (fun v h => hr v (List.mem_cons_of_mem _ h)) (fun n d e hd he => hs n d e hd (hasr n e he))
      (fun n d h => hin n d (hasr n d h))
    cases a with
    | other x =>
      simp only [posArgs, e1]
      refine ⟨_, rfl, by simp [e2], ?_⟩
      intro env pre ix he hl
      have := e3 env pre ix he hl
      simp only [entries, params, List.map_cons, List.cons.injEq] at this ⊢
      exact ⟨rfl, this⟩
    | arr v =>
      have hv : v.Wf := hw v (by simp)
      obtain ⟨p, h1, h2, h3, h4, h5⟩ := toPositional_spec ho hn hv
        (fun n d e hd he => hs n d e hd ⟨v, by simp, he⟩)
      simp only [posArgs, e1, h1]
      refine ⟨_, rfl, ?_, ?_⟩
      · simp [e2, asArr, h3]
      · intro env pre ix he hl
        have := e3 env pre ix he hl
        simp only [entries, params, List.map_cons, List.cons.injEq] at this ⊢
        refine ⟨?_, this⟩
        have hvl : ix.length = v.shape.length := by rw [hl, hr v (by simp)]
        simp only [asArr]
        rw [List.append_assoc, at_drop _ (by rw [h3]; simp [hvl]), h3, squash_append _ _ _ _ (by simp),
          squash_within (within_env he)]
        have hclosed : ∀ n d, ¬ Occurs p n d := by
          intro n d hh
          have := (h4 n d).1 hh
          exact this.2 (hin n d ⟨v, by simp, this.1⟩)
        rw [den_closed h2 hclosed _ env, h5 env _ (squash_length _ _ hvl), below_eq (squash_length _ _ hvl),
          squash_idem, below_eq hvl]

theorem bcastAll_pos (sz : List Nat) (k : Nat) : ∀ (args : List (Arg α)) (acc acc' b : List Nat),
    (∀ v, Arg.arr v ∈ args → v.shape.length = k) →
    (acc' = sz ++ acc ∧ acc.length = k ∨ acc = [] ∧ acc' = [] ∧ (sz ≠ [] → ∃ v, Arg.arr v ∈ args)) →
    bcastAll acc (args.map argShape) = some b →
    bcastAll acc' (args.map (fun
        | .arr v => sz ++ v.shape
        | .other _ => [])) = some (sz ++ b) := by
  intro args
  induction args with
  | nil =>
    intro acc acc' b _ h hb
    simp only [List.map_nil, bcastAll] at hb ⊢
    cases hb
    rcases h with ⟨h, _⟩ | ⟨h1, h2, h3⟩
    · rw [h]
    · have : sz = [] := by
        by_contra hc
        obtain ⟨v, hv⟩ := h3 hc
        simp at hv
      rw [this, h1, h2]
      rfl
  | cons a r ih =>
    intro acc acc' b hr h hb
    have hr' : ∀ v, Arg.arr v ∈ r → v.shape.length = k := fun v hv => hr v (List.mem_cons_of_mem _ hv)
    cases a with
    | other x =>
      simp only [List.map_cons, argShape, bcastAll, bcast_nil_right] at hb ⊢
      refine ih acc acc' b hr' ?_ hb
      rcases h with h | ⟨h1, h2, h3⟩
      · exact Or.inl h
      · refine Or.inr ⟨h1, h2, fun hs => ?_⟩
        obtain ⟨v, hv⟩ := h3 hs
        simp only [List.mem_cons, reduceCtorEq, false_or] at hv
        exact ⟨v, hv⟩
    | arr v =>
      have hv := hr v (by simp)
      simp only [List.map_cons, argShape, bcastAll] at hb ⊢
      rcases h with ⟨h1, h2⟩ | ⟨h1, h2, _⟩
      · rw [h1, bcast_append _ _ _ (by rw [h2, hv])]
        cases hc : bcast acc v.shape with
        | none => rw [hc] at hb; cases hb
        | some c =>
          rw [hc] at hb
          simp only [Option.map_some] at hb ⊢
          refine ih c _ b hr' (Or.inl ⟨rfl, ?_⟩) hb
          rw [bcast_length (by rw [h2, hv]) hc, h2]
      · subst h1
        subst h2
        rw [bcast_nil_left] at hb ⊢
        exact ih _ _ b hr' (Or.inl ⟨rfl, hv⟩) hb

theorem posDist_spec {order : List Name → List Name} (ho : ∀ l, (order l).Perm l) {args : List (Arg α)}
    {batch : List Nat} (h : Ok args batch) :
    ∃ sizes ps, posDist order args = .ok (sizes, ps, sizes.map Prod.snd ++ batch) ∧ sizesOf args = some sizes ∧
      (sizes.map Prod.fst).Nodup ∧ (∀ n d, (n, d) ∈ sizes ↔ Has args n d) ∧
      ∀ env pre ix, InRange args env → ix.length = batch.length →
        entries ps (pre ++ (sizes.map Prod.fst).map env ++ ix) = params args env ix := by
  obtain ⟨sizes, s1, s2, s3⟩ := sizesOf_spec h.sizes
  obtain ⟨ps, e1, e2, e3⟩ := posArgs_spec ho s2 batch.length args h.wf h.rank
    (fun n d e hd he => h.sizes n e d he ((s3 n d).1 hd))
    (fun n d hh => List.mem_map.2 ⟨_, (s3 n d).2 hh, rfl⟩)
  have hb := bcastAll_pos (sizes.map Prod.snd) batch.length args [] [] batch h.rank
    (Or.inr ⟨rfl, rfl, fun hne => by
      cases sizes with
      | nil => simp at hne
      | cons p r =>
        obtain ⟨v, hv, _⟩ := (s3 p.1 p.2).1 (by simp)
        exact ⟨v, hv⟩⟩) h.batch
  rw [← e2] at hb
  refine ⟨sizes, ps, ?_, s1, s2, s3, ?_⟩
  · simp only [posDist, s1, e1, batchShape, hb]
  · intro env pre ix he hl
    exact e3 env pre ix (fun n d hh => he n d ((s3 n d).1 hh)) hl

/-! ## Names of the result -/

theorem reindex_spec {v : Val β} (hv : v.Wf) {sizes : List (Name × Nat)} (hn : (sizes.map Prod.fst).Nodup)
    {sample rest : List Nat} (hs : v.shape = sample ++ (sizes.map Prod.snd ++ rest))
    (hf : ∀ n d e, (n, d) ∈ sizes → Occurs v n e → e = d) :
    ∃ w, reindex (sizes.map Prod.fst) sample.length v = .ok w ∧ w.Wf ∧ w.shape = sample ++ rest ∧
      (∀ n d, Occurs w n d ↔ Occurs v n d ∨ (n, d) ∈ sizes) ∧
      ∀ env s ix, s.length = sample.length → ix.length = rest.length →
        den w env (s ++ ix) = den v env (s ++ ((sizes.map Prod.fst).map env ++ ix)) := by
  have hz : ∀ n d, (d, some n) ∈ v.shape.zip (List.replicate sample.length none ++ (sizes.map Prod.fst).map some) ↔
      (n, d) ∈ sizes := by
    intro n d
    rw [hs, List.zip_append (by simp)]
    have h1 : ∀ (l : List Nat), (d, some n) ∉ l.zip (List.replicate l.length (none : Option Name)) := by
      intro l hh
      have := (List.of_mem_zip hh).2
      rw [List.mem_replicate] at this
      cases this.2
    have h2 : ∀ (s : List (Name × Nat)) (r : List Nat),
        (d, some n) ∈ (s.map Prod.snd ++ r).zip ((s.map Prod.fst).map some) ↔ (n, d) ∈ s := by
      intro s r
      induction s with
      | nil => simp
      | cons p s ih =>
        obtain ⟨m, e⟩ := p
        simp only [List.map_cons, List.cons_append, List.zip_cons_cons, List.mem_cons, Prod.mk.injEq,
          Option.some.injEq, ih]
        constructor <;> rintro (⟨h, h'⟩ | h) <;> simp_all
    rw [List.mem_append, h2]
    simp [h1]
  have hkl : (List.replicate sample.length (none : Option Name) ++ (sizes.map Prod.fst).map some).length ≤
      v.shape.length := by rw [hs]; simp
  obtain ⟨w, hw⟩ := (C37_getitem hv
    (List.replicate sample.length none ++ (sizes.map Prod.fst).map some)).1.2 ⟨hkl, by
      intro n d e hd he
      rw [hz] at hd he
      rcases hd with hd | hd <;> rcases he with he | he
      · exact hv.sizes n d e hd he
      · exact hf n e d he hd
      · exact (hf n d e hd he).symm
      · have e1 := (lookup_some hn _ _).2 hd
        rw [(lookup_some hn _ _).2 he] at e1
        exact (Option.some.inj e1).symm⟩
  obtain ⟨w1, w2, w3, w4⟩ := (C37_getitem hv _).2 w hw
  have hpad : pad v.shape.length (List.replicate sample.length none ++ (sizes.map Prod.fst).map some) =
      List.replicate sample.length none ++ ((sizes.map Prod.fst).map some ++ List.replicate rest.length none) := by
    unfold pad
    rw [List.append_assoc]
    congr 3
    rw [hs]
    simp
    omega
  rw [hpad] at w2 w4
  refine ⟨w, hw, w1, ?_, ?_, ?_⟩
  · rw [w2, hs, visible_none, visible_names _ _ _ (by simp), visible_all]
  · intro n d
    rw [w3, hz]
  · intro env s ix h1 h2
    rw [w4, coords_none _ _ _ _ _ h1, coords_names]
    have hnone := coords_none env rest.length [] ix [] h2
    simp only [List.append_nil, coords] at hnone
    rw [hnone]

/-! ## Permutation -/

theorem perm_shape (a b c : List Nat) :
    (((List.range (a ++ (b ++ c)).length).drop a.length).take b.length ++
      (List.range (a ++ (b ++ c)).length).take a.length ++
      (List.range (a ++ (b ++ c)).length).drop (a.length + b.length)).map ((a ++ (b ++ c)).getD · 0) =
      b ++ (a ++ c) := by
  have h : (List.range (a ++ (b ++ c)).length).map ((a ++ (b ++ c)).getD · 0) = a ++ (b ++ c) := by
    apply List.ext_getElem
    · simp
    · intro i h1 h2
      rw [List.getElem_map, List.getElem_range, List.getD_eq_getElem?_getD, List.getElem?_eq_getElem h2]
      rfl
  rw [List.map_append, List.map_append, List.map_take, List.map_drop, List.map_take, List.map_drop, h,
    List.drop_left, List.take_left, List.take_left, ← List.drop_drop, List.drop_left, List.drop_left,
    List.append_assoc]

theorem perm_index (a b c s js ix : List Nat) (hs : s.length = b.length) (hj : js.length = a.length)
    (hi : ix.length = c.length) :
    (List.range (a ++ (b ++ c)).length).map (fun j => (s ++ (js ++ ix)).getD
      ((((List.range (a ++ (b ++ c)).length).drop a.length).take b.length ++
        (List.range (a ++ (b ++ c)).length).take a.length ++
        (List.range (a ++ (b ++ c)).length).drop (a.length + b.length)).idxOf j) 0) = js ++ (s ++ ix) := by
  have hr : List.range (a ++ (b ++ c)).length =
      List.range a.length ++ (List.range' a.length b.length ++ List.range' (a.length + b.length) c.length) := by
    rw [List.range_eq_range', List.range_eq_range', List.length_append, List.length_append, ← List.range'_append_1,
      ← List.range'_append_1]
    simp
  have e1 : ((List.range (a ++ (b ++ c)).length).drop a.length).take b.length = List.range' a.length b.length := by
    rw [hr, List.drop_left' (by simp), List.take_left' (by simp)]
  have e2 : (List.range (a ++ (b ++ c)).length).take a.length = List.range a.length := by
    rw [hr, List.take_left' (by simp)]
  have e3 : (List.range (a ++ (b ++ c)).length).drop (a.length + b.length) =
      List.range' (a.length + b.length) c.length := by
    rw [hr, ← List.drop_drop, List.drop_left' (by simp), List.drop_left' (by simp)]
  rw [e1, e2, e3]
  have hidx : ∀ (k n j : Nat), j < n → (List.range' k n).idxOf (k + j) = j := by
    intro k n
    induction n generalizing k with
    | zero => intro j h; omega
    | succ n ih =>
      intro j h
      rw [List.range'_succ, List.idxOf_cons]
      cases j with
      | zero => simp
      | succ j =>
        have := ih (k + 1) j (by omega)
        have e : k + 1 + j = k + (j + 1) := by omega
        rw [e] at this
        have hne : (k == k + (j + 1)) = false := by simp
        rw [hne, this]
        rfl
  apply List.ext_getElem
  · simp; omega
  · intro j h1 h2
    rw [List.getElem_map, List.getElem_range]
    have hlt : j < a.length + (b.length + c.length) := by simpa using h1
    by_cases hja : j < a.length
    · have hn1 : j ∉ List.range' a.length b.length := by rw [List.mem_range'_1]; omega
      have hm : j ∈ List.range' a.length b.length ++ List.range a.length := by
        rw [List.mem_append, List.mem_range]; exact Or.inr hja
      have hx := hidx 0 a.length j hja
      rw [Nat.zero_add, ← List.range_eq_range'] at hx
      rw [List.idxOf_append_of_mem hm, List.idxOf_append_of_notMem hn1, hx, List.length_range']
      rw [List.getD_eq_getElem?_getD, List.getElem?_append_right (by omega), List.getElem?_append_left (by omega),
        List.getElem_append_left (by omega)]
      have : b.length + j - s.length = j := by omega
      rw [this, List.getElem?_eq_getElem (by omega)]
      rfl
    · by_cases hjb : j < a.length + b.length
      · have hm : j ∈ List.range' a.length b.length := by rw [List.mem_range'_1]; omega
        have hx := hidx a.length b.length (j - a.length) (by omega)
        have e : a.length + (j - a.length) = j := by omega
        rw [e] at hx
        rw [List.append_assoc, List.idxOf_append_of_mem hm, hx]
        rw [List.getD_eq_getElem?_getD, List.getElem?_append_left (by omega),
          List.getElem_append_right (by omega), List.getElem_append_left (by omega),
          List.getElem?_eq_getElem (by omega)]
        simp [hj]
      · have hm : j ∉ List.range' a.length b.length ++ List.range a.length := by
          rw [List.mem_append, List.mem_range, List.mem_range'_1]; omega
        have hx := hidx (a.length + b.length) c.length (j - (a.length + b.length)) (by omega)
        have e : a.length + b.length + (j - (a.length + b.length)) = j := by omega
        rw [e] at hx
        rw [List.idxOf_append_of_notMem hm, hx]
        rw [List.getD_eq_getElem?_getD, List.getElem?_append_right (by simp; omega),
          List.getElem?_append_right (by simp; omega),
          List.getElem_append_right (by omega), List.getElem_append_right (by omega)]
        simp only [List.length_append, List.length_range', List.length_range]
        rw [List.getElem?_eq_getElem (by omega)]
        simp only [Option.getD_some]
        congr 1
        omega

/-! ## Theorems -/

/-- **C75.** The batch shape of a distribution with named dimensions is that of its parameters without the names. -/
theorem C75_batch_shape_partial {order : List Name → List Name} (ho : ∀ l, (order l).Perm l) {args : List (Arg α)}
    {batch : List Nat} (h : Ok args batch) : termBatchShape order args = .ok batch := by
  obtain ⟨sizes, ps, e, _⟩ := posDist_spec ho h
  simp only [termBatchShape, e]
  rw [List.drop_left' (by simp)]

/-- **C75.** A sample has the sample shape and the batch shape, and the names of the parameters. For each value of the names it
is drawn from the distribution of the parameters for this value, and each value of the names has its own draw. -/
theorem C75_sample_partial {order : List Name → List Name} (ho : ∀ l, (order l).Perm l) {args : List (Arg α)}
    {batch : List Nat} (h : Ok args batch) (draw : List α → List Nat → β) (sample : List Nat) :
    ∃ (names : List Name) (w : Val β), termSample order draw args sample = .ok w ∧ names.Nodup ∧ (∀ n, n ∈ names ↔ ∃ d, Has args n d) ∧ w.Wf ∧
      w.shape = sample ++ batch ∧ (∀ n d, Occurs w n d ↔ Has args n d) ∧
      ∀ env s ix, InRange args env → s.length = sample.length → ix.length = batch.length →
        den w env (s ++ ix) = draw (params args env ix) (s ++ (names.map env ++ ix)) := by
  obtain ⟨sizes, ps, e, _, hn, hm, hp⟩ := posDist_spec ho h
  simp only [termSample, e]
  obtain ⟨p1, p2, p3⟩ := plain_wf (⟨sample ++ (sizes.map Prod.snd ++ batch),
    fun ix => draw (entries ps (ix.drop sample.length)) ix⟩ : Arr β)
  obtain ⟨w, w1, w2, w3, w4, w5⟩ := reindex_spec p1 hn p2 (fun n d e _ hh => absurd hh (p3 n e))
  refine ⟨sizes.map Prod.fst, w, w1, hn, ?_, w2, w3, ?_, ?_⟩
  · intro n
    rw [List.mem_map]
    constructor
    · rintro ⟨⟨m, d⟩, hh, rfl⟩
      exact ⟨d, (hm _ _).1 hh⟩
    · rintro ⟨d, hd⟩
      exact ⟨(n, d), (hm _ _).2 hd, rfl⟩
  · intro n d
    rw [w4, hm]
    exact ⟨fun hh => hh.resolve_left (p3 n d), Or.inr⟩
  · intro env s ix he hs hi
    rw [w5 env s ix hs hi, plain_den _ _ _ (by simp [hs, hi])]
    simp only
    rw [List.drop_left' hs, ← hp env [] ix he hi]
    rfl

/-- **C75.** The log density of a value with all dimensions of the batch is, for each value of the names and each entry, that of
the entry of the value under the parameters for it. The value may have further names, and the names of the distribution or not. -/
theorem C75_log_prob_partial {order : List Name → List Name} (ho : ∀ l, (order l).Perm l) {args : List (Arg α)}
    {batch : List Nat} (h : Ok args batch) (f : List α → α → β) {value : Val α} (hv : value.Wf)
    (hs : ∀ n d e, Has args n d → Occurs value n e → e = d) {sample vb full : List Nat}
    (hshape : value.shape = sample ++ vb) (hrank : vb.length = batch.length) (hfull : bcast vb batch = some full) :
    ∃ w, termLogProb order f args value = .ok w ∧ w.Wf ∧ w.shape = sample ++ full ∧
      (∀ n d, Occurs w n d ↔ Has args n d ∨ Occurs value n d) ∧
      ∀ env s ix, InRange args env → s.length = sample.length → ix.length = batch.length →
        den w env (s ++ ix) = f (params args env ix) (den value env (below value.shape (s ++ ix))) := by
  obtain ⟨sizes, ps, e, _, hn, hm, hp⟩ := posDist_spec ho h
  obtain ⟨v1, a1, a2, a3, a4, a5⟩ := toPositional_spec ho hn hv (fun n d e hd he => hs n d e ((hm n d).1 hd) he)
  have hsample : (if ((sizes.map Prod.snd ++ batch).drop sizes.length).length = 0 then value.shape.length
      else value.shape.length - ((sizes.map Prod.snd ++ batch).drop sizes.length).length) = sample.length := by
    rw [List.drop_left' (by simp), hshape, List.length_append, hrank]
    split <;> omega
  have hsl : sizes.length = (sizes.map Prod.snd).length := by simp
  rw [hshape] at a3
  simp only [termLogProb, e]
  rw [hsample]
  simp only [a1]
  have hperm := perm_shape (sizes.map Prod.snd) sample vb
  rw [← a3, ← hsl] at hperm
  obtain ⟨v2, b1, b2, b3, b4, b5⟩ := mapArr_spec a2
    ((((List.range v1.shape.length).drop sizes.length).take sample.length ++ (List.range v1.shape.length).take sizes.length ++
      (List.range v1.shape.length).drop (sizes.length + sample.length)).map (v1.shape.getD · 0))
    (fun (g : List Nat → α) ix => g ((List.range v1.shape.length).map (fun j => ix.getD
      ((((List.range v1.shape.length).drop sizes.length).take sample.length ++
      (List.range v1.shape.length).take sizes.length ++
      (List.range v1.shape.length).drop (sizes.length + sample.length)).idxOf j) 0)))
  have b1' : permuteDims v1 (((List.range v1.shape.length).drop sizes.length).take sample.length ++
      (List.range v1.shape.length).take sizes.length ++
      (List.range v1.shape.length).drop (sizes.length + sample.length)) = .ok v2 := b1
  rw [b1']
  simp only
  rw [hperm] at b3 b5
  have hl : (sizes.map Prod.snd ++ vb).length = (sizes.map Prod.snd ++ batch).length := by simp [hrank]
  have hfl : full.length = batch.length := by rw [bcast_length hrank hfull, hrank]
  rw [b3, bcast_longer _ _ _ hl, bcast_append _ _ _ hrank, hfull]
  simp only [Option.map_some]
  obtain ⟨v3, c1, c2, c3, c4, c5⟩ := mapArr_spec b2 (sample ++ (sizes.map Prod.snd ++ full))
    (fun (g : List Nat → α) ix => f (entries ps ix) (at_ (sample ++ (sizes.map Prod.snd ++ vb)) g ix))
  rw [c1]
  simp only
  have hocc : ∀ n d, Occurs v3 n d ↔ Occurs value n d ∧ n ∉ sizes.map Prod.fst := by
    intro n d
    rw [c4, b4, a4]
  obtain ⟨w, w1, w2, w3, w4, w5⟩ := reindex_spec c2 hn c3 (fun n d e hd hh =>
    absurd (List.mem_map.2 ⟨_, hd, rfl⟩) ((hocc n e).1 hh).2)
  refine ⟨w, w1, w2, w3, ?_, ?_⟩
  · intro n d
    rw [w4, hocc, hm]
    constructor
    · rintro (hh | hh)
      · exact Or.inr hh.1
      · exact Or.inl hh
    · rintro (hh | hh)
      · exact Or.inr hh
      · by_cases hin : n ∈ sizes.map Prod.fst
        · obtain ⟨⟨m, e⟩, hme, rfl⟩ := List.mem_map.1 hin
          have := (hm _ _).1 hme
          rw [hs _ _ _ this hh]
          exact Or.inr this
        · exact Or.inl ⟨hh, hin⟩
  · intro env s ix he hs' hi
    have hwin : Within (sizes.map Prod.snd) ((sizes.map Prod.fst).map env) :=
      within_env (fun n d hh => he n d ((hm n d).1 hh))
    rw [w5 env s ix hs' (by rw [hi, hfl]), c5 env _ (by simp [hs', hi, hfl])]
    have hp' := hp env s ix he hi
    rw [List.append_assoc] at hp'
    rw [hp']
    congr 1
    have hvb : ix.length = vb.length := by rw [hi, hrank]
    rw [at_eq _ (by simp [hs', hvb]), squash_append _ _ _ _ hs', squash_append _ _ _ _ (by simp), squash_within hwin]
    have ls : (squash sample s).length = sample.length := squash_length _ _ hs'
    have lx : (squash vb ix).length = vb.length := squash_length _ _ hvb
    rw [b5 env _ (by simp [ls, lx])]
    have hidx := perm_index (sizes.map Prod.snd) sample vb (squash sample s) ((sizes.map Prod.fst).map env)
      (squash vb ix) ls (by simp) lx
    rw [← a3, ← hsl] at hidx
    rw [hidx, a5 env _ (by rw [hshape]; simp [ls, lx]), hshape, below_eq (by simp [ls, lx]), below_eq (by simp [hs', hvb]),
      ← squash_append _ _ _ _ hs', squash_idem]

/-! ## Expansion -/

/-- The second shape can be got from the first by broadcasting; last dimension first. -/
def Under : List Nat → List Nat → Prop
  | [], _ => True
  | d :: x, e :: y => (d = e ∨ d = 1) ∧ Under x y
  | _ :: _, [] => False

theorem under_refl : ∀ x, Under x x := by
  intro x
  induction x with
  | nil => trivial
  | cons d x ih => exact ⟨Or.inl rfl, ih⟩

theorem under_trans : ∀ x y z, Under x y → Under y z → Under x z := by
  intro x
  induction x with
  | nil => intro _ _ _ _; trivial
  | cons d x ih =>
    intro y z h1 h2
    cases y with
    | nil => simp [Under] at h1
    | cons e y =>
      cases z with
      | nil => simp [Under] at h2
      | cons f z =>
        obtain ⟨a1, a2⟩ := h1
        obtain ⟨b1, b2⟩ := h2
        refine ⟨?_, ih y z a2 b2⟩
        rcases a1 with rfl | h
        · exact b1
        · exact Or.inr h

theorem brev_under : ∀ x y z, brev x y = some z → Under x z ∧ Under y z := by
  intro x
  induction x with
  | nil =>
    intro y z h
    simp only [brev, Option.some.injEq] at h
    subst h
    exact ⟨trivial, under_refl _⟩
  | cons d x ih =>
    intro y z h
    cases y with
    | nil =>
      simp only [brev, Option.some.injEq] at h
      subst h
      exact ⟨under_refl _, trivial⟩
    | cons e y =>
      simp only [brev] at h
      cases hb : bdim d e with
      | none => rw [hb] at h; cases h
      | some c =>
        rw [hb] at h
        cases hr : brev x y with
        | none => rw [hr] at h; cases h
        | some zs =>
          rw [hr] at h
          cases h
          obtain ⟨i1, i2⟩ := ih y zs hr
          have : (d = c ∨ d = 1) ∧ (e = c ∨ e = 1) := by
            unfold bdim at hb
            split at hb
            · cases hb; simp_all
            · split at hb
              · cases hb; simp_all
              · split at hb
                · cases hb; simp_all
                · cases hb
          exact ⟨⟨this.1, i1⟩, ⟨this.2, i2⟩⟩

theorem brev_of_under : ∀ x y, Under x y → brev x y = some y := by
  intro x
  induction x with
  | nil => intro _ _; rfl
  | cons d x ih =>
    intro y h
    cases y with
    | nil => simp [Under] at h
    | cons e y =>
      have hb : bdim d e = some e := by
        unfold bdim
        rcases h.1 with rfl | rfl
        · simp
        · split
          · next h => rw [h]
          · simp
      simp only [brev, hb, ih y h.2]

theorem bcast_of_under {x y : List Nat} (h : Under x.reverse y.reverse) : bcast x y = some y := by
  unfold bcast
  rw [brev_of_under _ _ h]
  simp

theorem bcast_under {x y z : List Nat} (h : bcast x y = some z) :
    Under x.reverse z.reverse ∧ Under y.reverse z.reverse := by
  unfold bcast at h
  cases hr : brev x.reverse y.reverse with
  | none => rw [hr] at h; cases h
  | some zs =>
    rw [hr] at h
    cases h
    simpa using brev_under _ _ _ hr

theorem bcastAll_under : ∀ (xs : List (List Nat)) (acc b : List Nat), bcastAll acc xs = some b →
    Under acc.reverse b.reverse ∧ ∀ x ∈ xs, Under x.reverse b.reverse := by
  intro xs
  induction xs with
  | nil => intro acc b h; cases h; exact ⟨under_refl _, by simp⟩
  | cons x xs ih =>
    intro acc b h
    simp only [bcastAll] at h
    cases hc : bcast acc x with
    | none => rw [hc] at h; cases h
    | some c =>
      rw [hc] at h
      obtain ⟨h1, h2⟩ := ih c b h
      obtain ⟨g1, g2⟩ := bcast_under hc
      refine ⟨under_trans _ _ _ g1 h1, ?_⟩
      intro y hy
      rcases List.mem_cons.1 hy with rfl | hy
      · exact under_trans _ _ _ g2 h1
      · exact h2 y hy

theorem under_get : ∀ x y, Under x y ↔ x.length ≤ y.length ∧
    ∀ (i : Nat) d e, x[i]? = some d → y[i]? = some e → d = e ∨ d = 1 := by
  intro x
  induction x with
  | nil => intro y; simp [Under]
  | cons d x ih =>
    intro y
    cases y with
    | nil => simp [Under]
    | cons e y =>
      simp only [Under, ih, List.length_cons, Nat.add_le_add_iff_right]
      constructor
      · rintro ⟨h1, h2, h3⟩
        refine ⟨h2, ?_⟩
        intro i a b ha hb
        cases i with
        | zero => simp at ha hb; subst ha; subst hb; exact h1
        | succ i => exact h3 i a b (by simpa using ha) (by simpa using hb)
      · rintro ⟨h1, h2⟩
        exact ⟨h2 0 d e (by simp) (by simp), h1, fun i a b ha hb => h2 (i + 1) a b (by simpa using ha) (by simpa using hb)⟩

theorem under_iff (x y : List Nat) : Under x.reverse y.reverse ↔ Expands x y := by
  rw [under_get]
  unfold Expands
  simp only [List.length_reverse]
  constructor
  · rintro ⟨h1, h2⟩
    refine ⟨h1, ?_⟩
    intro i d e hd he
    have hi := (List.getElem?_eq_some_iff.1 hd).1
    apply h2 (x.length - 1 - i) d e
    · rw [List.getElem?_reverse (by omega)]
      have : x.length - 1 - (x.length - 1 - i) = i := by omega
      rw [this]; exact hd
    · rw [List.getElem?_reverse (by omega)]
      have : y.length - 1 - (x.length - 1 - i) = y.length - x.length + i := by omega
      rw [this]; exact he
  · rintro ⟨h1, h2⟩
    refine ⟨h1, ?_⟩
    intro i d e hd he
    have hi := (List.getElem?_eq_some_iff.1 hd).1
    simp only [List.length_reverse] at hi
    rw [List.getElem?_reverse hi] at hd
    rw [List.getElem?_reverse (by omega)] at he
    apply h2 (x.length - 1 - i) d e hd
    have : y.length - x.length + (x.length - 1 - i) = y.length - 1 - i := by omega
    rw [this]; exact he

/-- Broadcasting in two steps. -/
theorem below_below {x y ix : List Nat} (h : Expands x y) (hl : ix.length = y.length) :
    below x (below y ix) = below x ix := by
  have hlen : (below y ix).length = y.length := by unfold below; simp [hl]
  have h1 := h.1
  show x.zipWith (fun d i => if d = 1 then 0 else i) ((below y ix).drop ((below y ix).length - x.length)) =
    x.zipWith (fun d i => if d = 1 then 0 else i) (ix.drop (ix.length - x.length))
  rw [hlen, hl]
  apply List.ext_getElem
  · simp [hlen, hl]
  · intro i a b
    simp only [List.length_zipWith, List.length_drop, hlen] at a
    rw [List.getElem_zipWith, List.getElem_zipWith]
    split
    · rfl
    · next hne =>
      rw [List.getElem_drop, List.getElem_drop]
      simp only [below, hl, Nat.sub_self, List.drop_zero]
      rw [List.getElem_zipWith]
      have := h.2 i x[i] y[y.length - x.length + i] (by simp) (by simp)
      rw [if_neg]
      rcases this with h | h
      · rw [← h]; exact hne
      · exact absurd h hne

theorem expandArgs_spec {batch shape : List Nat} (hs : Expands batch shape) : ∀ (args : List (Arg α)),
    (∀ v, Arg.arr v ∈ args → v.Wf) → (∀ v, Arg.arr v ∈ args → v.shape.length = batch.length) →
    (∀ v, Arg.arr v ∈ args → Expands v.shape batch) →
    ∃ out, expandArgs batch.length shape args = .ok out ∧ (∀ v, Arg.arr v ∈ out → v.Wf ∧ v.shape = shape) ∧
      (∀ n d, Has out n d ↔ Has args n d) ∧ ((∃ v, Arg.arr v ∈ out) ↔ ∃ v, Arg.arr v ∈ args) ∧
      ∀ env ix, ix.length = shape.length → params out env ix = params args env ix := by
  intro args
  induction args with
  | nil =>
    intro _ _ _
    refine ⟨[], rfl, by simp, fun n d => Iff.rfl, Iff.rfl, fun _ _ _ => rfl⟩
  | cons a r ih =>
    intro h1 h2 h3
    obtain ⟨out, o1, o2, o3, o4, o5⟩ := ih (fun v h => h1 v (List.mem_cons_of_mem _ h))
      (fun v h => h2 v (List.mem_cons_of_mem _ h)) (fun v h => h3 v (List.mem_cons_of_mem _ h))
    cases a with
    | other x =>
      simp only [expandArgs, expandArg, o1]
      refine ⟨_, rfl, ?_, ?_, ?_, ?_⟩
      · intro v hv
        exact o2 v (by simpa using hv)
      · intro n d
        have := o3 n d
        unfold Has at this ⊢
        simpa using this
      · simpa using o4
      · intro env ix hl
        have := o5 env ix hl
        simp only [params, List.map_cons, List.cons.injEq, true_and] at this ⊢
        exact this
    | arr v =>
      have hv := h1 v (by simp)
      have hr := h2 v (by simp)
      have hu : Under v.shape.reverse shape.reverse :=
        under_trans _ _ _ ((under_iff _ _).2 (h3 v (by simp))) ((under_iff _ _).2 hs)
      have hexp : Expands v.shape shape := (under_iff _ _).1 hu
      obtain ⟨w, w1, w2, w3, w4, _, w6⟩ := expand_spec hv hexp
      have hlen := hs.1
      have htake : v.shape.take batch.length = v.shape := by rw [← hr, List.take_length]
      have hdrop : v.shape.drop batch.length = [] := by rw [← hr, List.drop_length]
      simp only [expandArgs, expandArg, o1]
      rw [if_neg (by omega), if_neg (by omega), htake, hdrop, bcast_of_under hu]
      simp only [List.append_nil, w1]
      refine ⟨_, rfl, ?_, ?_, ?_, ?_⟩
      · intro u hu
        rcases List.mem_cons.1 hu with h | h
        · cases h; exact ⟨w2, w3⟩
        · exact o2 u h
      · intro n d
        have := o3 n d
        unfold Has at this ⊢
        simp only [List.mem_cons, Arg.arr.injEq, or_and_right, exists_or, exists_eq_left, this, w4]
      · exact ⟨fun _ => ⟨v, by simp⟩, fun _ => ⟨w, by simp⟩⟩
      · intro env ix hl
        have := o5 env ix hl
        simp only [params, List.map_cons, List.cons.injEq] at this ⊢
        refine ⟨?_, this⟩
        have hb : (below w.shape ix).length = shape.length := by unfold below; simp [hl, w3]
        rw [w6 env _ hb, w3, below_below hexp hl]

theorem bcastAll_same (shape : List Nat) : ∀ (args : List (Arg α)) (acc : List Nat),
    (∀ v, Arg.arr v ∈ args → v.shape = shape) → (acc = shape ∨ acc = [] ∧ ∃ v, Arg.arr v ∈ args) →
    bcastAll acc (args.map argShape) = some shape := by
  intro args
  induction args with
  | nil =>
    intro acc _ h
    rcases h with rfl | ⟨_, v, hv⟩
    · rfl
    · simp at hv
  | cons a r ih =>
    intro acc h1 h2
    have hr : ∀ v, Arg.arr v ∈ r → v.shape = shape := fun v hv => h1 v (List.mem_cons_of_mem _ hv)
    cases a with
    | other x =>
      simp only [List.map_cons, argShape, bcastAll, bcast_nil_right]
      exact ih acc hr (by simpa using h2)
    | arr v =>
      have hv : v.shape = shape := h1 v (by simp)
      simp only [List.map_cons, argShape, bcastAll, hv]
      rcases h2 with rfl | ⟨rfl, _⟩
      · rw [bcast_of_under (under_refl _)]
        exact ih _ hr (Or.inl rfl)
      · rw [bcast_nil_left]
        exact ih _ hr (Or.inl rfl)

/-- **C75.** Expansion of a distribution with a parameter that is an array gives a distribution of the shape asked for, with the
same names and the same parameters for each entry. -/
theorem C75_expand_partial {order : List Name → List Name} (ho : ∀ l, (order l).Perm l) {args : List (Arg α)}
    {batch : List Nat} (h : Ok args batch) {shape : List Nat} (hs : Expands batch shape) (ha : ∃ v, Arg.arr v ∈ args) :
    ∃ out, termExpand order args shape = .ok out ∧ Ok out shape ∧ (∀ n d, Has out n d ↔ Has args n d) ∧
      ∀ env ix, ix.length = shape.length → params out env ix = params args env ix := by
  simp only [termExpand, C75_batch_shape_partial ho h]
  by_cases hb : batch = shape
  · rw [if_pos hb]
    subst hb
    exact ⟨args, rfl, h, fun _ _ => Iff.rfl, fun _ _ _ => rfl⟩
  · rw [if_neg hb]
    obtain ⟨_, hu⟩ := bcastAll_under _ _ _ h.batch
    obtain ⟨out, o1, o2, o3, o4, o5⟩ := expandArgs_spec hs args h.wf h.rank (fun v hv =>
      (under_iff _ _).1 (hu v.shape (List.mem_map.2 ⟨_, hv, rfl⟩)))
    refine ⟨out, o1, ⟨fun v hv => (o2 v hv).1, ?_, fun v hv => by rw [(o2 v hv).2], ?_⟩, o3, o5⟩
    · intro n d e hd he
      exact h.sizes n d e ((o3 n d).1 hd) ((o3 n e).1 he)
    · exact bcastAll_same shape out [] (fun v hv => (o2 v hv).2) (Or.inr ⟨rfl, o4.2 ha⟩)

/-! ## Examples -/

/-- A location named `i` with a dimension of the batch, and a scale named `j`. -/
def loc : Val (List Nat) := ⟨⟨[2, 3], id⟩, [some "i", none]⟩
def scale : Val (List Nat) := ⟨⟨[1, 4], id⟩, [none, some "j"]⟩

def env (n : Name) : Nat := if n = "i" then 1 else if n = "j" then 3 else 5

example : (termBatchShape id [.arr loc, .arr scale]).toOption = some [3] := by decide

example : (termSample id (fun ps ix => (ps, ix)) [.arr loc, .arr scale] [6]).toOption.map
    (fun w => (w.shape, den w env [4, 2])) = some ([6, 3], ([[1, 2], [0, 3]], [4, 1, 3, 2])) := by decide

example : (termLogProb id (fun ps x => (ps, x)) [.arr loc, .arr scale]
    (⟨⟨[6, 4, 3], id⟩, [none, some "j", none]⟩)).toOption.map (fun w => (w.shape, den w env [5, 2])) =
    some ([6, 3], ([[1, 2], [0, 3]], [5, 3, 2])) := by decide

example : (termExpand id [.arr loc, .arr scale, .other []] [7, 3]).toOption.map (fun out => params out env [6, 2]) =
    some [[1, 2], [0, 3], []] := by decide

example : Ok [.arr loc, .arr scale] [3] := by
  refine ⟨?_, ?_, ?_, by decide⟩
  · intro v hv
    simp only [List.mem_cons, Arg.arr.injEq, List.not_mem_nil, or_false] at hv
    rcases hv with rfl | rfl
    · exact ⟨rfl, by intro n d e hd he; simp [Occurs, loc] at hd he; omega⟩
    · exact ⟨rfl, by intro n d e hd he; simp [Occurs, scale] at hd he; omega⟩
  · intro n d e hd he
    simp [Has, Occurs, loc, scale] at hd he
    rcases hd with ⟨rfl, rfl⟩ | ⟨rfl, rfl⟩ <;> simp_all
  · intro v hv
    simp only [List.mem_cons, Arg.arr.injEq, List.not_mem_nil, or_false] at hv
    rcases hv with rfl | rfl <;> rfl

/-! ## Negations -/

/-- **C75, negation.** A scale with fewer dimensions than the location: if the sizes agree, the scale of the name `i = 1` is used
for the entry 1 of the batch, whatever `i` is; otherwise there is no sample. -/
theorem C75_rank_fails :
    (∃ w, termSample id (fun ps _ => ps) [.arr (⟨⟨[2, 2], id⟩, [some "i", none]⟩ : Val (List Nat)),
        .arr ⟨⟨[2], id⟩, [some "i"]⟩] [] = .ok w ∧ den w (fun _ => 0) [1] = [[0, 1], [1]] ∧
      params [.arr (⟨⟨[2, 2], id⟩, [some "i", none]⟩ : Val (List Nat)), .arr ⟨⟨[2], id⟩, [some "i"]⟩] (fun _ => 0) [1] =
        [[0, 1], [0]]) ∧
    termSample id (fun ps _ => ps) [.arr (⟨⟨[3, 2], id⟩, [some "i", none]⟩ : Val (List Nat)),
      .arr ⟨⟨[3], id⟩, [some "i"]⟩] [] = .error .value :=
  ⟨⟨_, rfl, rfl, rfl⟩, rfl⟩

/-- **C75, negation.** A value with fewer dimensions than the batch: the entry 1 of the batch gets the value for `i = 1`,
whatever `i` is. -/
theorem C75_value_rank_fails :
    ∃ w, termLogProb id (fun _ x => x) [.arr (⟨⟨[2, 2], id⟩, [some "i", none]⟩ : Val (List Nat))]
        ⟨⟨[2], id⟩, [some "i"]⟩ = .ok w ∧ den w (fun _ => 0) [1] = [1] ∧
      den (⟨⟨[2], id⟩, [some "i"]⟩ : Val (List Nat)) (fun _ => 0) (below [] [1]) = [0] :=
  ⟨_, rfl, rfl, rfl⟩

/-- **C75, negation.** The first name gets the dimension of the support: with a name `i` of size 2 and a support of 3 values,
the result has the name `i` with size 3 and a dimension of size 2, and `i` numbers the values of the support. -/
theorem C75_enumerate_fails :
    ∃ w, termEnumerate id 3 (fun ps k => (ps, k)) [.arr (⟨⟨[2], id⟩, [some "i"]⟩ : Val (List Nat))] = .ok w ∧
      w.shape = [2] ∧ Occurs w "i" 3 ∧ ∀ (env : Name → Nat) (x : Nat), den w env [x] = ([[x]], env "i") :=
  ⟨_, rfl, rfl, by unfold Occurs; decide, fun _ _ => rfl⟩

/-- **C75, negation.** The entropy of a distribution with the name `i` has no name; its dimension is an unnamed one. -/
theorem C75_entropy_fails :
    ∃ w, termEntropy id (fun ps => ps) [.arr (⟨⟨[2], id⟩, [some "i"]⟩ : Val (List Nat))] = .ok w ∧ w.shape = [2] ∧
      (∀ n d, ¬ Occurs w n d) ∧ (∀ env (x : Nat), den w env [x] = [[x]]) ∧
      termBatchShape id [.arr (⟨⟨[2], id⟩, [some "i"]⟩ : Val (List Nat))] = .ok [] :=
  ⟨_, rfl, rfl, (plain_wf _).2.2, fun _ _ => rfl, rfl⟩

/-- **C75, negation.** A distribution whose parameters are numbers is not expanded; one with a parameter of fewer dimensions
than the batch cannot be expanded. -/
theorem C75_expand_fails :
    (∃ out, termExpand id [.other 0, .other 1] [3] = .ok out ∧ termBatchShape id out = .ok []) ∧
    termBatchShape id [.arr (plain ⟨[3], id⟩ : Val (List Nat)), .arr (plain ⟨[], id⟩)] = .ok [3] ∧
    termExpand id [.arr (plain ⟨[3], id⟩ : Val (List Nat)), .arr (plain ⟨[], id⟩)] [2, 3] = .error .value :=
  ⟨⟨_, rfl, rfl⟩, rfl, rfl⟩

end Verif.Indexed.Dist
