/-!
# C69: indexing with slices and named dimensions

Model of `torch_getitem` (`handlers/torch.py` 267-318) for keys of slices, integers and index tensors without dimensions,
which is what a named dimension is while its values are gone through (`_partial_eval` 83-130).

* The key has an entry for each dimension (`_getitem_ellipsis_and_none`, see C36); `slice(None)` is `full`.
* `torch.ops.aten.index`: the index tensors are broadcast together; dimensions without index tensor (`None`) are kept; the
  dimensions of the broadcast index tensors come first, or in place of the indexed dimensions if these are adjacent.
* `x[tuple(key)]` without tensors is what is stated (`expected`).
-/

namespace Verif.Getitem

/-- A tensor. -/
structure Arr (α : Type) where
  shape : List Nat
  get : List Nat → α

/-- An entry of a key. -/
inductive Key where
  | full
  | slice (start stop step : Option Int)
  | int (i : Int)
  | scalar (i : Int)
deriving DecidableEq

inductive Err where
  | index
  | runtime
  | value
deriving DecidableEq

/-- A tensor of indices. -/
structure Ix where
  shape : List Nat
  get : List Nat → Int

/-- `⌈a / b⌉` for positive `b`, and 0 for negative `a`. -/
def ceilDiv (a b : Int) : Nat := ((a + b - 1) / b).toNat

/-- `torch.arange(start, stop, step)` reshaped to `(-1,) + (1,) * i`. -/
def arange (start stop step : Int) (i : Nat) : Except Err Ix :=
  if step = 0 then .error .runtime
  else if 0 < step then
    if stop < start then .error .runtime
    else .ok ⟨ceilDiv (stop - start) step :: List.replicate i 1, fun j => start + step * (j.headD 0 : Nat)⟩
  else
    if start < stop then .error .runtime
    else .ok ⟨ceilDiv (start - stop) (-step) :: List.replicate i 1, fun j => start + step * (j.headD 0 : Nat)⟩

/-- The loop (297-316): entry `i`, of a dimension of size `d`. -/
def convert (i d : Nat) : Key → Except Err (Option Ix)
  | .full => .ok none
  | .slice start stop step =>
    match arange (start.getD 0) (stop.getD d) (step.getD 1) i with
    | .error e => .error e
    | .ok t => .ok (some t)
  | .int n => .ok (some ⟨[], fun _ => n⟩)
  | .scalar n => .ok (some ⟨[], fun _ => n⟩)

def convertAll (i : Nat) : List Nat → List Key → Except Err (List (Option Ix))
  | d :: ds, k :: ks =>
    match convert i d k, convertAll (i + 1) ds ks with
    | .ok t, .ok ts => .ok (t :: ts)
    | .error e, _ => .error e
    | _, .error e => .error e
  | _, _ => .ok []

/-- Broadcasting of shapes, last dimension first. -/
def broadcast : List Nat → List Nat → Option (List Nat)
  | [], b => some b
  | a, [] => some a
  | a :: as, b :: bs =>
    match broadcast as bs with
    | none => none
    | some r => if a = b then some (a :: r) else if b = 1 then some (a :: r) else if a = 1 then some (b :: r) else none

/-- The shape of all index tensors broadcast together, last dimension first. -/
def broadcastAll : List (Option Ix) → Option (List Nat)
  | [] => some []
  | none :: ts => broadcastAll ts
  | some t :: ts =>
    match broadcastAll ts with
    | none => none
    | some r => broadcast t.shape.reverse r

/-- The entry of an index tensor at an index into the broadcast shape. -/
def Ix.at (t : Ix) (j : List Nat) : Int :=
  t.get (List.zipWith (fun d k => if d = 1 then 0 else k) t.shape (j.drop (j.length - t.shape.length)))

/-- An index into a dimension of size `d`. -/
def resolve (d : Nat) (i : Int) : Option Nat :=
  if 0 ≤ i ∧ i < d then some i.toNat else if -d ≤ i ∧ i < 0 then some (i + d).toNat else none

/-- The sizes of the dimensions that are kept. -/
def kept : List Nat → List (Option Ix) → List Nat
  | d :: ds, none :: ts => d :: kept ds ts
  | _ :: ds, some _ :: ts => kept ds ts
  | _, _ => []

/-- The number of entries before the first index tensor. -/
def before : List (Option Ix) → Nat
  | none :: ts => before ts + 1
  | _ => 0

/-- Whether the index tensors are adjacent. -/
def adjacent (ts : List (Option Ix)) : Bool := (((ts.dropWhile Option.isNone).dropWhile Option.isSome).all Option.isNone)

/-- The index into the tensor for the index `j` into the index tensors and the index `f` into the kept dimensions. -/
def coords : List Nat → List (Option Ix) → List Nat → List Nat → Option (List Nat)
  | _ :: ds, none :: ts, j, f =>
    match coords ds ts j f.tail with
    | none => none
    | some r => some (f.headD 0 :: r)
  | d :: ds, some t :: ts, j, f =>
    match resolve d (t.at j), coords ds ts j f with
    | some p, some r => some (p :: r)
    | _, _ => none
  | _, _, _, _ => some []

/-- All indices into a shape. -/
def indices : List Nat → List (List Nat)
  | [] => [[]]
  | d :: ds => (List.range d).flatMap fun i => (indices ds).map (i :: ·)

/-- `torch.ops.aten.index(x, ts)`. -/
def atenIndex {α : Type} (x : Arr α) (ts : List (Option Ix)) : Except Err (Arr α) :=
  match broadcastAll ts with
  | none => .error .index
  | some r =>
    let adv := r.reverse
    let pre := if adjacent ts then before ts else 0
    let free := kept x.shape ts
    let shape := free.take pre ++ adv ++ free.drop pre
    let at' := fun ix : List Nat =>
      coords x.shape ts ((ix.drop pre).take adv.length) (ix.take pre ++ ix.drop (pre + adv.length))
    if (indices shape).all fun ix => (at' ix).isSome then
      .ok ⟨shape, fun ix => x.get ((at' ix).getD [])⟩
    else .error .index

/-! ## What is stated -/

/-- The bounds of a slice of a dimension of size `d`: negative ones count from the end, all are clamped. -/
def bound (d : Nat) (i : Int) : Nat := if i < 0 then (i + d).toNat else min i.toNat d

/-- What an entry of the key selects from a dimension of size `d`: one index, or a number of indices. -/
inductive Sel where
  | one (p : Nat)
  | many (n : Nat) (p : Nat → Nat)

def select (d : Nat) : Key → Except Err Sel
  | .full => .ok (.many d id)
  | .slice start stop step =>
    let s := step.getD 1
    let a := (start.map (bound d)).getD 0
    let b := (stop.map (bound d)).getD d
    if s ≤ 0 then .error .value else .ok (.many (ceilDiv (b - a) s) fun j => a + s.toNat * j)
  | .int i | .scalar i =>
    match resolve d i with
    | none => .error .index
    | some p => .ok (.one p)

def selectAll : List Nat → List Key → Except Err (List Sel)
  | d :: ds, k :: ks =>
    match select d k, selectAll ds ks with
    | .ok s, .ok ss => .ok (s :: ss)
    | .error e, _ => .error e
    | _, .error e => .error e
  | _, _ => .ok []

/-- The shape of what is selected. -/
def selShape : List Sel → List Nat
  | [] => []
  | .one _ :: ss => selShape ss
  | .many n _ :: ss => n :: selShape ss

/-- The index into the tensor of an index into what is selected. -/
def selIndex : List Sel → List Nat → List Nat
  | [], _ => []
  | .one p :: ss, ix => p :: selIndex ss ix
  | .many _ p :: ss, ix => p (ix.headD 0) :: selIndex ss ix.tail

/-- What indexing means: each entry selects from its dimension; the dimensions of integers go away, the others stay in
order. -/
def expected {α : Type} (x : Arr α) (ks : List Key) : Except Err (Arr α) :=
  match selectAll x.shape ks with
  | .error e => .error e
  | .ok ss => .ok ⟨selShape ss, fun ix => x.get (selIndex ss ix)⟩

/-- Tensors of the same shape with the same entries. -/
structure Same {α : Type} (x y : Arr α) : Prop where
  shape : x.shape = y.shape
  get : ∀ ix ∈ indices x.shape, x.get ix = y.get ix

/-! ## The operation -/

def Key.isTensor : Key → Bool
  | .scalar _ => true
  | _ => false

/-- `torch_getitem(x, key)` (267-318). -/
def getitem {α : Type} (x : Arr α) (ks : List Key) : Except Err (Arr α) :=
  if ks.isEmpty then .ok x
  else if !ks.any Key.isTensor then expected x ks
  else
    match convertAll 0 x.shape ks with
    | .error e => .error e
    | .ok ts => atenIndex x ts

/-! ## Proofs -/

/-- Entries that are neither slices other than `:` nor ellipses. -/
def Plain : Key → Prop
  | .slice _ _ _ => False
  | _ => True

/-- Entries allowed for the first dimension: as before, or a slice within the dimension. -/
def First (d : Nat) : Key → Prop
  | .slice start stop step =>
    0 ≤ start.getD 0 ∧ start.getD 0 ≤ stop.getD d ∧ stop.getD d ≤ d ∧ 0 < step.getD 1
  | _ => True

theorem mem_indices_cons (d : Nat) (ds ix : List Nat) :
    ix ∈ indices (d :: ds) ↔ ∃ i f, ix = i :: f ∧ i < d ∧ f ∈ indices ds := by
  constructor
  · intro h
    simp only [indices, List.mem_flatMap, List.mem_map, List.mem_range] at h
    obtain ⟨i, hi, f, hf, e⟩ := h
    exact ⟨i, f, e.symm, hi, hf⟩
  · rintro ⟨i, f, rfl, hi, hf⟩
    simp only [indices, List.mem_flatMap, List.mem_map, List.mem_range]
    exact ⟨i, hi, f, hf, rfl⟩

theorem mem_indices_nil (ix : List Nat) : ix ∈ indices [] ↔ ix = [] := by simp [indices]

/-- Plain entries, but the first. -/
theorem tail_spec : ∀ (ks : List Key) (ds : List Nat) (i : Nat) (ss : List Sel), ks.length = ds.length →
    (∀ k ∈ ks, Plain k) → selectAll ds ks = .ok ss →
    ∃ ts, convertAll i ds ks = .ok ts ∧ broadcastAll ts = some [] ∧ kept ds ts = selShape ss ∧
      ∀ j f, f ∈ indices (selShape ss) → coords ds ts j f = some (selIndex ss f)
  | [], [], _, ss, _, _, h => by
    simp only [selectAll, Except.ok.injEq] at h
    subst h
    exact ⟨[], rfl, rfl, rfl, fun _ _ _ => rfl⟩
  | k :: ks, d :: ds, i, ss, hl, hp, h => by
    have hl' : ks.length = ds.length := by simpa using hl
    have hp' : ∀ k ∈ ks, Plain k := fun k hk => hp k (List.mem_cons_of_mem _ hk)
    have hk := hp k List.mem_cons_self
    cases hs : selectAll ds ks with
    | error e => cases hq : select d k <;> simp [selectAll, hs, hq] at h
    | ok ss' =>
      obtain ⟨ts, h1, h2, h3, h4⟩ := tail_spec ks ds (i + 1) ss' hl' hp' hs
      cases k with
      | slice a b c => exact absurd hk (by simp [Plain])
      | full =>
        simp only [selectAll, select, hs, Except.ok.injEq] at h
        subst h
        refine ⟨none :: ts, by simp [convertAll, convert, h1], h2, by simp [kept, selShape, h3], ?_⟩
        intro j f hf
        obtain ⟨n, f', rfl, _, hf'⟩ := (mem_indices_cons _ _ _).1 hf
        simp [coords, h4 j f' hf', selIndex]
      | int n =>
        cases hr : resolve d n with
        | none => simp [selectAll, select, hr] at h
        | some p =>
          simp only [selectAll, select, hr, hs, Except.ok.injEq] at h
          subst h
          refine ⟨some ⟨[], fun _ => n⟩ :: ts, by simp [convertAll, convert, h1], by simp [broadcastAll, h2, broadcast],
            by simp [kept, selShape, h3], ?_⟩
          intro j f hf
          simp [coords, Ix.at, hr, h4 j f hf, selIndex]
      | scalar n =>
        cases hr : resolve d n with
        | none => simp [selectAll, select, hr] at h
        | some p =>
          simp only [selectAll, select, hr, hs, Except.ok.injEq] at h
          subst h
          refine ⟨some ⟨[], fun _ => n⟩ :: ts, by simp [convertAll, convert, h1], by simp [broadcastAll, h2, broadcast],
            by simp [kept, selShape, h3], ?_⟩
          intro j f hf
          simp [coords, Ix.at, hr, h4 j f hf, selIndex]

/-- Index tensors without dimensions. -/
theorem aten_scalars {α : Type} (x : Arr α) (ts : List (Option Ix)) (ss : List Sel) (h2 : broadcastAll ts = some [])
    (h3 : kept x.shape ts = selShape ss)
    (h4 : ∀ j f, f ∈ indices (selShape ss) → coords x.shape ts j f = some (selIndex ss f)) :
    ∃ w, atenIndex x ts = .ok w ∧ Same w ⟨selShape ss, fun ix => x.get (selIndex ss ix)⟩ := by
  have hc : ((indices (selShape ss)).all fun ix => (coords x.shape ts [] ix).isSome) = true := by
    rw [List.all_eq_true]
    intro ix hix
    rw [h4 [] ix hix]; rfl
  simp only [atenIndex, h2, List.reverse_nil, List.length_nil, List.take_zero, List.append_nil, List.take_append_drop,
    Nat.add_zero, h3, hc, if_true]
  exact ⟨_, rfl, rfl, fun ix hix => by simp only [h4 [] ix hix, Option.getD_some]⟩

theorem lt_of_ceilDiv {a s : Int} (i : Nat) (hs : 0 < s) (h : i < ceilDiv a s) : s * i < a := by
  unfold ceilDiv at h
  have h1 : (i : Int) + 1 ≤ (a + s - 1) / s := by omega
  have h2 := Int.mul_le_of_le_ediv hs h1
  have h3 : ((i : Int) + 1) * s = s * i + s := by rw [Int.add_mul, Int.one_mul, Int.mul_comm]
  omega

theorem bound_of_nonneg (d : Nat) (i : Int) (h0 : 0 ≤ i) (h1 : i ≤ d) : (bound d i : Int) = i := by
  unfold bound
  rw [if_neg (by omega)]
  omega

/-- **C69.** Indexing with plain entries, after a slice within the first dimension or another plain entry, gives what the
entries select. -/
theorem C69_first_slice_partial {α : Type} (x : Arr α) (d : Nat) (ds : List Nat) (k : Key) (ks : List Key)
    (hx : x.shape = d :: ds) (hl : ks.length = ds.length) (hk : First d k) (hp : ∀ k ∈ ks, Plain k) (r : Arr α)
    (h : expected x (k :: ks) = .ok r) : ∃ w, getitem x (k :: ks) = .ok w ∧ Same w r := by
  by_cases ht : (k :: ks).any Key.isTensor = true
  case neg =>
    refine ⟨r, ?_, rfl, fun _ _ => rfl⟩
    simp only [getitem, List.isEmpty_cons, Bool.false_eq_true, if_false]
    rw [if_pos (by simpa using ht)]
    exact h
  have hg : getitem x (k :: ks) = match convertAll 0 (d :: ds) (k :: ks) with
      | .error e => .error e
      | .ok ts => atenIndex x ts := by
    simp only [getitem, List.isEmpty_cons, Bool.false_eq_true, if_false, ht, Bool.not_true, hx]
  rw [hg]
  simp only [expected, hx] at h
  cases hss : selectAll (d :: ds) (k :: ks) with
  | error e => simp [hss] at h
  | ok ss =>
    simp only [hss, Except.ok.injEq] at h
    subst h
    by_cases hpk : Plain k
    · obtain ⟨ts, h1, h2, h3, h4⟩ := tail_spec (k :: ks) (d :: ds) 0 ss (by simp [hl])
        (fun k' hk' => by
          rcases List.mem_cons.1 hk' with rfl | h'
          · exact hpk
          · exact hp _ h') hss
      rw [h1]
      exact aten_scalars x ts ss h2 (hx ▸ h3) (hx ▸ h4)
    · cases k with
      | full => exact absurd trivial hpk
      | int n => exact absurd trivial hpk
      | scalar n => exact absurd trivial hpk
      | slice a b c =>
        simp only [First] at hk
        obtain ⟨ha, hab, hb, hc⟩ := hk
        have e1 : (((a.map (bound d)).getD 0 : Nat) : Int) = a.getD 0 := by
          cases a with
          | none => rfl
          | some a => exact bound_of_nonneg d a ha (Int.le_trans hab hb)
        have e2 : (((b.map (bound d)).getD d : Nat) : Int) = b.getD d := by
          cases b with
          | none => rfl
          | some b => exact bound_of_nonneg d b (Int.le_trans ha hab) hb
        have hn : ¬ c.getD 1 ≤ 0 := by omega
        cases hs : selectAll ds ks with
        | error e => simp [selectAll, hs, select, hn] at hss
        | ok ss' =>
          obtain ⟨ts, h1, h2, h3, h4⟩ := tail_spec ks ds 1 ss' hl hp hs
          simp only [selectAll, hs, select, hn, if_false, Except.ok.injEq, e1, e2] at hss
          have hn' : ¬ c.getD 1 = 0 := by omega
          have hn'' : ¬ b.getD d < a.getD 0 := by omega
          simp only [convertAll, convert, arange, hn', if_false, hc, if_true, hn'', h1, List.replicate_zero, Nat.zero_add]
          generalize hA : a.getD 0 = A at *
          generalize hB : b.getD d = B at *
          generalize hC : c.getD 1 = C at *
          generalize hm : ceilDiv (B - A) C = m at *
          generalize hA' : (a.map (bound d)).getD 0 = A' at *
          have hco : ∀ i f, i < m → f ∈ indices (selShape ss') →
              coords (d :: ds) (some ⟨[m], fun j => A + C * (j.headD 0 : Nat)⟩ :: ts) [i] f =
                some ((A' + C.toNat * i) :: selIndex ss' f) := by
            intro i f hi hf
            have hlt := lt_of_ceilDiv i hc (hm ▸ hi)
            have hat : (Ix.at ⟨[m], fun j => A + C * (j.headD 0 : Nat)⟩ [i]) = A + C * i := by
              simp only [Ix.at, List.length_cons, List.length_nil, Nat.sub_self, List.drop_zero, List.zipWith_cons_cons,
                List.zipWith_nil_left, List.headD_cons]
              by_cases h1m : m = 1
              · rw [if_pos h1m]
                have : i = 0 := by omega
                subst this; rfl
              · rw [if_neg h1m]
            have hCi : (0 : Int) ≤ C * i := Int.mul_nonneg (by omega) (by omega)
            have hcast : ((C.toNat * i : Nat) : Int) = C * i := by
              rw [Int.natCast_mul, Int.toNat_of_nonneg (by omega)]
            have hr : resolve d (A + C * i) = some (A' + C.toNat * i) := by
              unfold resolve
              rw [if_pos ⟨by omega, by omega⟩]
              congr 1
              omega
            simp only [coords, hat, hr, h4 [i] f hf]
          have hpre : (if adjacent (some ⟨[m], fun j => A + C * (j.headD 0 : Nat)⟩ :: ts) = true then
              before (some ⟨[m], fun j => A + C * (j.headD 0 : Nat)⟩ :: ts) else 0) = 0 := by
            split <;> rfl
          have hbr : broadcastAll (some ⟨[m], fun j => A + C * (j.headD 0 : Nat)⟩ :: ts) = some [m] := by
            simp [broadcastAll, h2, broadcast]
          have hall : ((indices (m :: selShape ss')).all fun ix => (coords (d :: ds)
              (some ⟨[m], fun j => A + C * (j.headD 0 : Nat)⟩ :: ts) (ix.take 1) (ix.drop 1)).isSome) = true := by
            rw [List.all_eq_true]
            intro ix hix
            obtain ⟨i, f, rfl, hi, hf⟩ := (mem_indices_cons _ _ _).1 hix
            have := hco i f hi hf
            simp only [List.take_succ_cons, List.take_zero, List.drop_succ_cons, List.drop_zero, this, Option.isSome_some]
          simp only [atenIndex, hbr, hpre, List.reverse_cons, List.reverse_nil, List.nil_append, List.length_cons,
            List.length_nil, List.take_zero, List.drop_zero, Nat.zero_add, hx, kept, h3, List.cons_append, hall, if_true]
          refine ⟨_, rfl, ?_, ?_⟩
          · rw [← hss]; rfl
          · intro ix hix
            obtain ⟨i, f, rfl, hi, hf⟩ := (mem_indices_cons _ _ _).1 hix
            have := hco i f hi hf
            simp only [List.take_succ_cons, List.take_zero, List.drop_succ_cons, List.drop_zero, this, Option.getD_some]
            rw [← hss]; rfl

theorem tail_error : ∀ (ks : List Key) (ds : List Nat) (i : Nat) (e : Err), ks.length = ds.length →
    (∀ k ∈ ks, Plain k) → selectAll ds ks = .error e →
    e = .index ∧ ∃ ts, convertAll i ds ks = .ok ts ∧ broadcastAll ts = some [] ∧ (∀ j f, coords ds ts j f = none) ∧
      ∀ n ∈ kept ds ts, n ∈ ds
  | [], [], _, e, _, _, h => by simp [selectAll] at h
  | k :: ks, d :: ds, i, e, hl, hp, h => by
    have hl' : ks.length = ds.length := by simpa using hl
    have hp' : ∀ k ∈ ks, Plain k := fun k hk => hp k (List.mem_cons_of_mem _ hk)
    have hk := hp k List.mem_cons_self
    have hconv : ∃ t, convert i d k = .ok t ∧ (∀ ts r, broadcastAll ts = some r → broadcastAll (t :: ts) = some r) ∧
        (∀ ds' ts n, n ∈ kept (d :: ds') (t :: ts) → n = d ∨ n ∈ kept ds' ts) ∧
        (∀ ds' ts j, (∀ f, coords ds' ts j f = none) → ∀ f, coords (d :: ds') (t :: ts) j f = none) ∧
        (∀ e', select d k = .error e' → e' = .index ∧ ∀ ds' ts j f, coords (d :: ds') (t :: ts) j f = none) := by
      cases k with
      | slice a b c => exact absurd hk (by simp [Plain])
      | full =>
        refine ⟨none, rfl, fun _ _ h => h, ?_, ?_, ?_⟩
        · intro ds' ts n hn; simpa [kept] using hn
        · intro ds' ts j h f; simp [coords, h]
        · intro e' h; simp [select] at h
      | int n =>
        refine ⟨some ⟨[], fun _ => n⟩, rfl, ?_, ?_, ?_, ?_⟩
        · intro ts r h; simp [broadcastAll, h, broadcast]
        · intro ds' ts n hn; exact Or.inr (by simpa [kept] using hn)
        · intro ds' ts j h f; simp only [coords, h]; cases resolve d (Ix.at ⟨[], fun _ => n⟩ j) <;> rfl
        · intro e' h
          cases hr : resolve d n with
          | some p => simp [select, hr] at h
          | none =>
            simp only [select, hr, Except.error.injEq] at h
            exact ⟨h.symm, fun ds' ts j f => by simp [coords, Ix.at, hr]⟩
      | scalar n =>
        refine ⟨some ⟨[], fun _ => n⟩, rfl, ?_, ?_, ?_, ?_⟩
        · intro ts r h; simp [broadcastAll, h, broadcast]
        · intro ds' ts n hn; exact Or.inr (by simpa [kept] using hn)
        · intro ds' ts j h f; simp only [coords, h]; cases resolve d (Ix.at ⟨[], fun _ => n⟩ j) <;> rfl
        · intro e' h
          cases hr : resolve d n with
          | some p => simp [select, hr] at h
          | none =>
            simp only [select, hr, Except.error.injEq] at h
            exact ⟨h.symm, fun ds' ts j f => by simp [coords, Ix.at, hr]⟩
    obtain ⟨t, c1, c2, c3, c4, c5⟩ := hconv
    cases hs : selectAll ds ks with
    | error e' =>
      obtain ⟨he, ts, h1, h2, h3, h4⟩ := tail_error ks ds (i + 1) e' hl' hp' hs
      refine ⟨?_, t :: ts, by simp [convertAll, c1, h1], c2 _ _ h2, fun j f => c4 ds ts j (h3 j) f, ?_⟩
      · cases hq : select d k with
        | error e'' =>
          simp only [selectAll, hq, Except.error.injEq] at h
          rw [← h]; exact (c5 _ hq).1
        | ok q =>
          simp only [selectAll, hq, hs, Except.error.injEq] at h
          rw [← h]; exact he
      · intro n hn
        rcases c3 _ _ _ hn with rfl | hn
        · exact List.mem_cons_self
        · exact List.mem_cons_of_mem _ (h4 n hn)
    | ok ss =>
      cases hq : select d k with
      | ok q => simp [selectAll, hq, hs] at h
      | error e'' =>
        simp only [selectAll, hq, Except.error.injEq] at h
        obtain ⟨ts, h1, h2, h3, -⟩ := tail_spec ks ds (i + 1) ss hl' hp' hs
        refine ⟨h ▸ (c5 _ hq).1, t :: ts, by simp [convertAll, c1, h1], c2 _ _ h2, fun j f => (c5 _ hq).2 ds ts j f, ?_⟩
        intro n hn
        rcases c3 _ _ _ hn with rfl | hn
        · exact List.mem_cons_self
        · have : ∀ (ks : List Nat) (ts : List (Option Ix)) n, n ∈ kept ks ts → n ∈ ks := by
            intro ks
            induction ks with
            | nil => intro ts n h; cases ts <;> simp [kept] at h
            | cons a ks ih =>
              intro ts n h
              cases ts with
              | nil => simp [kept] at h
              | cons t ts =>
                cases t with
                | none =>
                  simp only [kept, List.mem_cons] at h
                  rcases h with rfl | h
                  · exact List.mem_cons_self
                  · exact List.mem_cons_of_mem _ (ih _ _ h)
                | some t => exact List.mem_cons_of_mem _ (ih _ _ (by simpa [kept] using h))
          exact List.mem_cons_of_mem _ (this _ _ _ hn)

theorem indices_ne_nil : ∀ ds : List Nat, (∀ d ∈ ds, 0 < d) → ∃ ix, ix ∈ indices ds
  | [], _ => ⟨[], by simp [indices]⟩
  | d :: ds, h => by
    obtain ⟨f, hf⟩ := indices_ne_nil ds fun d hd => h d (List.mem_cons_of_mem _ hd)
    exact ⟨0 :: f, (mem_indices_cons _ _ _).2 ⟨0, f, rfl, h d List.mem_cons_self, hf⟩⟩

/-- **C69.** Plain entries with an index outside of its dimension raise `IndexError`. -/
theorem C69_out_of_range_partial {α : Type} (x : Arr α) (ks : List Key) (hl : ks.length = x.shape.length)
    (hp : ∀ k ∈ ks, Plain k) (hd : ∀ d ∈ x.shape, 0 < d) (e : Err) (h : expected x ks = .error e) :
    e = .index ∧ getitem x ks = .error .index := by
  cases hss : selectAll x.shape ks with
  | ok ss => simp [expected, hss] at h
  | error e' =>
    have h0 := h
    simp only [expected, hss, Except.error.injEq] at h
    subst h
    obtain ⟨he, ts, h1, h2, h3, h4⟩ := tail_error ks x.shape 0 e' hl hp hss
    refine ⟨he, ?_⟩
    have hne : ks.isEmpty = false := by
      cases ks with
      | nil => cases hx : x.shape with
        | nil => simp [selectAll, hx] at hss
        | cons => simp [hx] at hl
      | cons => rfl
    by_cases ht : ks.any Key.isTensor = true
    · simp only [getitem, hne, ht, h1, Bool.false_eq_true, if_false, Bool.not_true]
      simp only [atenIndex, h2, List.reverse_nil, List.length_nil, List.take_zero, List.append_nil, List.take_append_drop,
        Nat.add_zero, h3, Option.isSome_none]
      obtain ⟨ix, hix⟩ := indices_ne_nil (kept x.shape ts) fun n hn => hd n (h4 n hn)
      rw [if_neg]
      rw [List.all_eq_true]
      exact fun hc => absurd (hc ix hix) (by simp)
    · simp only [getitem, hne, Bool.false_eq_true, if_false, Bool.not_eq_true] at ht ⊢
      rw [if_pos (by simp [ht]), h0, he]

/-- The tensor whose entries are their indices. -/
def grid (shape : List Nat) : Arr (List Nat) := ⟨shape, id⟩

example : ∃ w, getitem (grid [4, 5, 6]) [.slice (some 1) none (some 2), .full, .scalar (-1)] = .ok w ∧
    w.shape = [2, 5] ∧ w.get [1, 4] = [3, 4, 5] := ⟨_, rfl, rfl, rfl⟩

example : ∃ w, getitem (grid [4, 5, 6]) [.full, .int 2, .scalar (-1)] = .ok w ∧ w.shape = [4] ∧ w.get [1] = [1, 2, 5] :=
  ⟨_, rfl, rfl, rfl⟩

example : getitem (grid [4, 5]) [.full, .scalar 5] = .error .index := rfl

/-- **C69, negation.** A slice after a named dimension: `torch.ones(d, e)[i(), :m]` has an extra dimension of size 1. -/
theorem C69_later_slice_fails {α : Type} (x : Arr α) (d e i m : Nat) (hx : x.shape = [d, e]) (hi : i < d) (hm : m ≤ e) :
    ∃ w r, getitem x [.scalar i, .slice none (some m) none] = .ok w ∧ w.shape = [m, 1] ∧
      expected x [.scalar i, .slice none (some m) none] = .ok r ∧ r.shape = [m] := by
  have hr : ∀ n k : Nat, n < k → resolve k (n : Int) = some n := by
    intro n k h
    unfold resolve
    rw [if_pos ⟨by omega, by omega⟩]
    rfl
  have hcd : ceilDiv m 1 = m := by simp [ceilDiv]
  have hb : min m e = m := by omega
  have hb' : bound e m = m := by
    unfold bound
    rw [if_neg (by omega)]
    omega
  have hE : expected x [.scalar i, .slice none (some m) none] =
      .ok ⟨[m], fun ix => x.get (selIndex [.one i, .many m fun j => 0 + Int.toNat 1 * j] ix)⟩ := by
    simp [expected, hx, selectAll, select, hr i d hi, hb', hcd, selShape]
  suffices hw : ∃ w, getitem x [.scalar i, .slice none (some m) none] = .ok w ∧ w.shape = [m, 1] by
    obtain ⟨w, h1, h2⟩ := hw
    exact ⟨w, _, h1, h2, hE, rfl⟩
  · have hm0 : ¬ ((m : Int) < 0) := by omega
    have h1 : convertAll 0 [d, e] [.scalar i, .slice none (some m) none] =
        .ok [some ⟨[], fun _ => i⟩, some ⟨[m, 1], fun j => 0 + 1 * (j.headD 0 : Nat)⟩] := by
      simp [convertAll, convert, arange, hm0, hcd]
    simp only [getitem, hx]
    simp only [List.isEmpty_cons, Bool.false_eq_true, if_false, List.any_cons, Key.isTensor, Bool.true_or, Bool.not_true, h1]
    have h2 : broadcastAll [some ⟨[], fun _ => i⟩, some ⟨[m, 1], fun j => 0 + 1 * (j.headD 0 : Nat)⟩] = some [1, m] := by
      simp [broadcastAll, broadcast]
    simp only [atenIndex, h2, hx, adjacent, before, kept]
    simp only [List.reverse_cons, List.reverse_nil, List.nil_append, List.cons_append, List.take_nil, List.drop_nil]
    rw [if_pos]
    · exact ⟨_, rfl, rfl⟩
    rw [List.all_eq_true]
    intro ix hix
    obtain ⟨a, f, rfl, ha, hf⟩ := (mem_indices_cons _ _ _).1 hix
    obtain ⟨b, g, rfl, hb, hg⟩ := (mem_indices_cons _ _ _).1 hf
    rw [mem_indices_nil] at hg
    subst hg
    have ha' : (if m = 1 then 0 else a) < e := by split <;> omega
    simp [List.dropWhile, coords, Ix.at, hr i d hi, hr _ e ha']

example : ∃ w, getitem (grid [4, 5]) [.scalar 3, .slice none (some 2) none] = .ok w ∧ w.shape = [2, 1] := ⟨_, rfl, rfl⟩

example : ∃ w, getitem (grid [3, 4, 5]) [.full, .scalar 3, .slice none (some 2) none] = .ok w ∧ w.shape = [3, 2, 1, 1] :=
  ⟨_, rfl, rfl⟩

/-- **C69, negation.** Two slices come out transposed. -/
theorem C69_two_slices_fails : ∃ w r,
    getitem (grid [3, 4, 5]) [.slice none (some 2) none, .slice none (some 3) none, .scalar 0] = .ok w ∧
    expected (grid [3, 4, 5]) [.slice none (some 2) none, .slice none (some 3) none, .scalar 0] = .ok r ∧
    w.shape = [3, 2] ∧ r.shape = [2, 3] ∧ w.get [2, 1] = [1, 2, 0] ∧ r.get [1, 2] = [1, 2, 0] :=
  ⟨_, _, rfl, rfl, rfl, rfl, rfl, rfl⟩

/-- **C69, negation.** A slice from the end selects from the end and then everything from the start. -/
theorem C69_negative_start_fails : ∃ w r,
    getitem (grid [3, 4]) [.slice (some (-1)) none none, .scalar 0] = .ok w ∧
    expected (grid [3, 4]) [.slice (some (-1)) none none, .scalar 0] = .ok r ∧
    w.shape = [4] ∧ r.shape = [1] ∧ (List.range 4).map (fun i => w.get [i]) = [[2, 0], [0, 0], [1, 0], [2, 0]] ∧
    r.get [0] = [2, 0] :=
  ⟨_, _, rfl, rfl, rfl, rfl, rfl, rfl⟩

/-- **C69, negation.** A slice up to a negative index raises. -/
theorem C69_negative_stop_fails : ∃ r,
    getitem (grid [3, 4]) [.slice none (some (-1)) none, .scalar 0] = .error .runtime ∧
    expected (grid [3, 4]) [.slice none (some (-1)) none, .scalar 0] = .ok r ∧ r.shape = [2] :=
  ⟨_, rfl, rfl, rfl⟩

/-- **C69, negation.** A slice beyond the end raises instead of being clamped. -/
theorem C69_beyond_fails : ∃ r,
    getitem (grid [3, 4]) [.slice none (some 5) none, .scalar 0] = .error .index ∧
    expected (grid [3, 4]) [.slice none (some 5) none, .scalar 0] = .ok r ∧ r.shape = [3] :=
  ⟨_, rfl, rfl, rfl⟩

end Verif.Getitem
