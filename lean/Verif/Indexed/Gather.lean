import Verif.Indexed.Named
import Verif.Indexed.IndexSet

/-!
# C56, C57: `gather` and `stack`

Model of `handlers/indexed.py`: `indices_of` 98-159, `name_to_sym` 162-164, `gather` 167-237, `stack` 240-249, on the
tensors of `Named`. The names of dimensions are those made by `name_to_sym`, which are determined by their strings;
`gather` does not see other operations. Sets of indices are lists in the order of iteration.
-/

namespace Verif.Indexed.Named

variable {α : Type}

/-- The tensor with the given names, shape and entries: what torch operations on tensors with named dimensions
give (`_partial_eval`). -/
def vec (s : List (Name × Nat)) (shape : List Nat) (f : (Name → Nat) → List Nat → α) : Val α where
  arr :=
    { shape := s.map Prod.snd ++ shape
      get := fun ix => f (upd (fun _ => 0) (s.map Prod.fst) (ix.take s.length)) (ix.drop s.length) }
  dims := s.map (fun p => some p.1) ++ List.replicate shape.length none

/-- `indices_of(value)`. -/
def indicesOf (v : Val α) : Option IndexSet :=
  v.sizes.map (fun s => s.map (fun p => (p.1, (List.range p.2).map Int.ofNat)))

/-- The position an index stands for in a dimension; negative indices count from the end. -/
def resolve (size : Nat) (i : Int) : Option Nat :=
  if 0 ≤ i then (if i < size then some i.toNat else none)
  else if 0 ≤ i + size then some (i + size).toNat else none

/-- `gather(value, indexset)` (167-237): each name in the index set becomes `torch.tensor(list(inds))[name()]`.
Without such names the value is unchanged; `torch.tensor([])` is no tensor of integers, so an empty set raises,
as does an index out of range. -/
def gather (v : Val α) (S : IndexSet) : Except Err (Val α) :=
  match v.sizes with
  | none => .error .value
  | some s =>
    if s.all (fun p => (S.lookup p.1).isNone) then .ok v
    else if s.all (fun p => match S.lookup p.1 with
        | none => true
        | some inds => !inds.isEmpty && inds.all (fun i => (resolve p.2 i).isSome)) then
      .ok (vec (s.map (fun p => (p.1, match S.lookup p.1 with | none => p.2 | some inds => inds.length))) v.shape
        (fun env ix => den v (fun n => match S.lookup n with
          | none => env n
          | some inds => (resolve ((s.lookup n).getD 0) (inds.getD (env n) 0)).getD 0) ix))
    else .error .index

/-- The names of several tensors with their sizes. -/
def allSizes (vs : List (Val α)) : Option (List (Name × Nat)) :=
  sizesLoop [] (vs.flatMap (fun v => v.arr.shape.zip v.dims))

/-- `stack(values, name)` (240-249) for values of the same shape. Without values `torch.stack` raises. -/
def stack (vs : List (Val α)) (name : Name) : Except Err (Val α) :=
  match vs with
  | [] => .error .runtime
  | v :: _ =>
    match allSizes vs with
    | none => .error .value
    | some s =>
      getitem (vec s (vs.length :: v.shape) (fun env ix => den (vs.getD (ix.headD 0) v) env ix.tail)) [some name]

theorem vec_wf {s : List (Name × Nat)} (shape : List Nat) (f : (Name → Nat) → List Nat → α)
    (hn : (s.map Prod.fst).Nodup) :
    (vec s shape f).Wf ∧ (vec s shape f).shape = shape ∧ ∀ n d, Occurs (vec s shape f) n d ↔ (n, d) ∈ s := by
  have hocc : ∀ n d, Occurs (vec s shape f) n d ↔ (n, d) ∈ s := by
    intro n d
    unfold Occurs vec
    simp only
    rw [mem_zip_pad]
    have : ∀ (s : List (Name × Nat)) (r : List Nat),
        (d, some n) ∈ (s.map Prod.snd ++ r).zip (s.map (fun p => some p.1)) ↔ (n, d) ∈ s := by
      intro s r
      induction s with
      | nil => simp
      | cons p s ih =>
        obtain ⟨m, e⟩ := p
        simp [ih]
        tauto
    exact this s _
  refine ⟨⟨by simp [vec], ?_⟩, ?_, hocc⟩
  · intro n d e hd he
    rw [hocc] at hd he
    have := (lookup_some hn n d).2 hd
    rw [(lookup_some hn n e).2 he] at this
    exact (Option.some.inj this).symm
  · have : s.map (fun p => some p.1) = (s.map Prod.fst).map some := by simp
    show visible (s.map Prod.snd ++ shape) (s.map (fun p => some p.1) ++ List.replicate shape.length none) = _
    rw [this, visible_names _ _ _ (by simp), visible_all]

/-- The entries of `vec`, for values of the names that agree with `env` on the names. -/
theorem vec_den {s : List (Name × Nat)} (shape : List Nat) (f : (Name → Nat) → List Nat → α) (env : Name → Nat)
    (ix : List Nat) (h : ix.length = shape.length) :
    ∃ env', (∀ n ∈ s.map Prod.fst, env' n = env n) ∧ den (vec s shape f) env ix = f env' ix := by
  have e : s.map (fun p => some p.1) = (s.map Prod.fst).map some := by simp
  refine ⟨upd (fun _ => 0) (s.map Prod.fst) ((s.map Prod.fst).map env), fun n hn => upd_map _ env _ n hn, ?_⟩
  unfold den
  simp only [vec]
  rw [e, coords_names]
  have hl : ((s.map Prod.fst).map env).length = s.length := by simp
  have hc := coords_none env shape.length [] ix [] h
  simp only [List.append_nil, coords] at hc
  rw [hc, List.take_append_of_le_length (by omega), List.take_of_length_le (by omega), List.drop_append,
    List.drop_of_length_le (by omega), hl, Nat.sub_self]
  simp

theorem dims_occurs {v : Val α} (hv : v.Wf) {n : Name} (h : some n ∈ v.dims) : ∃ d, Occurs v n d := by
  obtain ⟨i, hi, e⟩ := List.getElem_of_mem h
  have hi' : i < v.arr.shape.length := by rw [← hv.rank]; exact hi
  refine ⟨v.arr.shape[i], ?_⟩
  unfold Occurs
  rw [List.mem_iff_getElem]
  exact ⟨i, by simp only [List.length_zip]; omega, by simp only [List.getElem_zip]; rw [e]⟩

/-! ## `gather` -/

/-- The index that `gather` reads for the value `j` of the name `n`. -/
def chosen (v : Val α) (S : IndexSet) (n : Name) (j i : Nat) : Prop :=
  match S.lookup n with
  | none => i = j
  | some inds => ∃ d x, Occurs v n d ∧ inds[j]? = some x ∧ resolve d x = some i

/-- `gather` succeeds exactly if, for the names of the value that are in the index set, the sets of indices are not
empty and within the dimensions. -/
theorem C56_defined {v : Val α} (hv : v.Wf) (S : IndexSet) :
    (∃ w, gather v S = .ok w) ↔ ∀ n d inds, Occurs v n d → S.lookup n = some inds →
      inds ≠ [] ∧ ∀ i ∈ inds, (resolve d i).isSome := by
  obtain ⟨s, h1, h2, h3⟩ := hv.sizesOf
  unfold gather
  rw [h1]
  simp only
  split
  · next hall =>
    refine ⟨fun _ n d inds ho hl => ?_, fun _ => ⟨_, rfl⟩⟩
    rw [List.all_eq_true] at hall
    have := hall _ ((h3 n d).2 ho)
    simp only at this
    rw [hl] at this
    cases this
  · split
    · next hall =>
      refine ⟨fun _ n d inds ho hl => ?_, fun _ => ⟨_, rfl⟩⟩
      rw [List.all_eq_true] at hall
      have := hall _ ((h3 n d).2 ho)
      simp only at this
      rw [hl] at this
      simp only [Bool.and_eq_true, Bool.not_eq_true', List.isEmpty_eq_false_iff, List.all_eq_true] at this
      exact this
    · next hall =>
      refine ⟨(by rintro ⟨w, hw⟩; cases hw), fun h => absurd ?_ hall⟩
      rw [List.all_eq_true]
      rintro ⟨n, d⟩ hp
      simp only
      cases hl : S.lookup n with
      | none => rfl
      | some inds =>
        obtain ⟨a, b⟩ := h n d inds ((h3 n d).1 hp) hl
        simp only [Bool.and_eq_true, Bool.not_eq_true', List.isEmpty_eq_false_iff, List.all_eq_true]
        exact ⟨a, b⟩

/-- `gather` keeps shape and names; a name in the index set gets the number of its indices as its size, and its
value `j` reads the value at the `j`-th of them. -/
theorem C56_gather {v w : Val α} (hv : v.Wf) (S : IndexSet) (h : gather v S = .ok w) :
    w.Wf ∧ w.shape = v.shape ∧
    (∀ n e, Occurs w n e ↔ ∃ d, Occurs v n d ∧ match S.lookup n with | none => e = d | some inds => e = inds.length) ∧
    ∀ env env' ix, ix.length = v.shape.length → (∀ n d, Occurs v n d → chosen v S n (env n) (env' n)) →
      den w env ix = den v env' ix := by
  obtain ⟨s, h1, h2, h3⟩ := hv.sizesOf
  unfold gather at h
  rw [h1] at h
  simp only at h
  split at h
  · next hall =>
    cases h
    rw [List.all_eq_true] at hall
    have hno : ∀ n d, Occurs v n d → S.lookup n = none := by
      intro n d ho
      have := hall _ ((h3 n d).2 ho)
      simpa using this
    refine ⟨hv, rfl, ?_, ?_⟩
    · intro n e
      constructor
      · intro ho
        exact ⟨e, ho, by rw [hno n e ho]⟩
      · rintro ⟨d, ho, he⟩
        rw [hno n d ho] at he
        rw [he]
        exact ho
    · intro env env' ix _ hch
      unfold den
      rw [coords_congr v.dims env env' ix]
      intro n hn
      obtain ⟨d, ho⟩ := dims_occurs hv hn
      have := hch n d ho
      unfold chosen at this
      rw [hno n d ho] at this
      exact this.symm
  · split at h
    · cases h
      have hfst : (s.map (fun p => (p.1, match S.lookup p.1 with | none => p.2 | some inds => inds.length))).map
          Prod.fst = s.map Prod.fst := by simp
      obtain ⟨w1, w2, w3⟩ := vec_wf
        (s := s.map (fun p => (p.1, match S.lookup p.1 with | none => p.2 | some inds => inds.length))) v.shape
        (fun env ix => den v (fun n => match S.lookup n with
          | none => env n
          | some inds => (resolve ((s.lookup n).getD 0) (inds.getD (env n) 0)).getD 0) ix) (by rw [hfst]; exact h2)
      refine ⟨w1, w2, ?_, ?_⟩
      · intro n e
        rw [w3, List.mem_map]
        constructor
        · rintro ⟨⟨m, d⟩, hp, he⟩
          simp only [Prod.mk.injEq] at he
          obtain ⟨rfl, he⟩ := he
          refine ⟨d, (h3 m d).1 hp, ?_⟩
          cases hl : S.lookup m with
          | none => rw [hl] at he; exact he.symm
          | some inds => rw [hl] at he; exact he.symm
        · rintro ⟨d, ho, he⟩
          refine ⟨(n, d), (h3 n d).2 ho, ?_⟩
          cases hl : S.lookup n with
          | none => rw [hl] at he; simp [he]
          | some inds => rw [hl] at he; simp [he]
      · intro env env' ix hix hch
        obtain ⟨env1, e1, e2⟩ := vec_den
          (s := s.map (fun p => (p.1, match S.lookup p.1 with | none => p.2 | some inds => inds.length))) v.shape
          (fun env ix => den v (fun n => match S.lookup n with
            | none => env n
            | some inds => (resolve ((s.lookup n).getD 0) (inds.getD (env n) 0)).getD 0) ix) env ix hix
        rw [e2]
        unfold den
        rw [coords_congr v.dims _ env' ix]
        intro n hn
        obtain ⟨d, ho⟩ := dims_occurs hv hn
        have hsn : (n, d) ∈ s := (h3 n d).2 ho
        have hen : env1 n = env n := e1 n (by rw [hfst]; exact List.mem_map.2 ⟨_, hsn, rfl⟩)
        have hc := hch n d ho
        unfold chosen at hc
        cases hl : S.lookup n with
        | none => rw [hl] at hc; simp only at hc ⊢; rw [hen, hc]
        | some inds =>
          rw [hl] at hc
          obtain ⟨d', x, o', hx, hr⟩ := hc
          have hd := hv.sizes n d' d o' ho
          subst hd
          simp only
          rw [(lookup_some h2 n d').2 hsn, hen, List.getD_eq_getElem?_getD, hx]
          simp [hr]
    · cases h

theorem lookup_map {β γ : Type} (f : Name × β → γ) : ∀ (s : List (Name × β)) (n : Name),
    (s.map (fun p => (p.1, f p))).lookup n = (s.lookup n).map (fun b => f (n, b)) := by
  intro s n
  induction s with
  | nil => rfl
  | cons p s ih =>
    obtain ⟨m, b⟩ := p
    simp only [List.map_cons, List.lookup_cons]
    by_cases h : n = m
    · subst h; simp
    · have : (n == m) = false := by simpa using h
      rw [this]
      exact ih

/-- Gathering all indices of a value changes nothing. -/
theorem C56_all {v : Val α} (hv : v.Wf) (hpos : ∀ n, ¬ Occurs v n 0) :
    ∃ S w, indicesOf v = some S ∧ gather v S = .ok w ∧ w.shape = v.shape ∧ (∀ n d, Occurs w n d ↔ Occurs v n d) ∧
      ∀ env ix, ix.length = v.shape.length → (∀ n d, Occurs v n d → env n < d) → den w env ix = den v env ix := by
  obtain ⟨s, h1, h2, h3⟩ := hv.sizesOf
  have hi : indicesOf v = some (s.map (fun p => (p.1, (List.range p.2).map Int.ofNat))) := by
    unfold indicesOf
    rw [h1]
    rfl
  have hl : ∀ n d, Occurs v n d →
      (s.map (fun p => (p.1, (List.range p.2).map Int.ofNat))).lookup n = some ((List.range d).map Int.ofNat) := by
    intro n d ho
    rw [lookup_map (fun p => (List.range p.2).map Int.ofNat), (lookup_some h2 n d).2 ((h3 n d).2 ho)]
    rfl
  have hres : ∀ d k : Nat, k < d → resolve d (Int.ofNat k) = some k := by
    intro d k hk
    show resolve d (k : Int) = some k
    unfold resolve
    rw [if_pos (Int.natCast_nonneg k), if_pos (Int.ofNat_lt.2 hk)]
    simp
  obtain ⟨w, hw⟩ := (C56_defined hv (s.map (fun p => (p.1, (List.range p.2).map Int.ofNat)))).2 (by
    intro n d inds ho he
    rw [hl n d ho] at he
    cases he
    constructor
    · intro e
      have := congrArg List.length e
      simp at this
      subst this
      exact hpos n ho
    · intro i hi
      obtain ⟨k, hk, rfl⟩ := List.mem_map.1 hi
      rw [hres d k (List.mem_range.1 hk)]
      rfl)
  obtain ⟨_, g2, g3, g4⟩ := C56_gather hv _ hw
  refine ⟨_, w, hi, hw, g2, ?_, ?_⟩
  · intro n e
    rw [g3]
    constructor
    · rintro ⟨d, ho, he⟩
      rw [hl n d ho] at he
      simp only [List.length_map, List.length_range] at he
      rw [he]; exact ho
    · intro ho
      refine ⟨e, ho, ?_⟩
      rw [hl n e ho]
      simp
  · intro env ix hix hlt
    apply g4 env env ix hix
    intro n d ho
    unfold chosen
    rw [hl n d ho]
    refine ⟨d, Int.ofNat (env n), ho, ?_, hres d _ (hlt n d ho)⟩
    rw [List.getElem?_map, List.getElem?_range (hlt n d ho)]
    rfl

/-- `gather(x[a()], IndexSet(a={2, 0}))` for `x` of shape `(3, 2)`. -/
example : (gather (⟨⟨[3, 2], id⟩, [some "a", none]⟩ : Val (List Nat)) [("a", [2, 0])]).toOption.map
    (fun w => (w.sizes, w.shape, den w (fun _ => 0) [1], den w (fun _ => 1) [1])) =
    some (some [("a", 2)], [2], [2, 1], [0, 1]) := by decide

/-- Selecting one index does not remove the name, although the documentation says that it does:
`gather(Y, IndexSet(T={0}))` still has the named dimension `T`, of size 1. -/
theorem C56_keeps_name : ∃ (v w : Val (List Nat)), v.Wf ∧ indicesOf v = some [("T", [0, 1])] ∧
    gather v [("T", [0])] = .ok w ∧ indicesOf w = some [("T", [0])] := by
  refine ⟨⟨⟨[2], id⟩, [some "T"]⟩, _, ⟨rfl, ?_⟩, rfl, rfl, rfl⟩
  intro n d e hd he
  simp [Occurs] at hd he
  rw [hd.1, he.1]

/-! ## `stack` -/

theorem allSizes_spec {vs : List (Val α)}
    (hf : ∀ v ∈ vs, ∀ w ∈ vs, ∀ n d e, Occurs v n d → Occurs w n e → d = e) :
    ∃ s, allSizes vs = some s ∧ (s.map Prod.fst).Nodup ∧ ∀ n d, (n, d) ∈ s ↔ ∃ v ∈ vs, Occurs v n d := by
  have hm : ∀ n d, (d, some n) ∈ vs.flatMap (fun v => v.arr.shape.zip v.dims) ↔ ∃ v ∈ vs, Occurs v n d := by
    intro n d
    rw [List.mem_flatMap]
    rfl
  obtain ⟨s, h1, h2, h3⟩ := sizesLoop_spec (vs.flatMap (fun v => v.arr.shape.zip v.dims)) [] (by simp) (by
    intro n d e hd he
    simp only [List.not_mem_nil, false_or] at hd he
    obtain ⟨v, hv, hd⟩ := (hm n d).1 hd
    obtain ⟨w, hw, he⟩ := (hm n e).1 he
    exact hf v hv w hw n d e hd he)
  refine ⟨s, h1, h2, ?_⟩
  intro n d
  rw [h3, hm]
  simp

/-- `stack(values, name)` for a name not used by the values has the names of the values, the new one with the number
of values as its size, and for the value `i` of this name the `i`-th value. -/
theorem C57_stack {vs : List (Val α)} (hne : vs ≠ []) (hwf : ∀ v ∈ vs, v.Wf) (shape : List Nat)
    (hshape : ∀ v ∈ vs, v.shape = shape) (hf : ∀ v ∈ vs, ∀ w ∈ vs, ∀ n d e, Occurs v n d → Occurs w n e → d = e)
    (name : Name) (hfresh : ∀ v ∈ vs, ∀ d, ¬ Occurs v name d) :
    ∃ w, stack vs name = .ok w ∧ w.Wf ∧ w.shape = shape ∧
      (∀ n d, Occurs w n d ↔ (∃ v ∈ vs, Occurs v n d) ∨ (n = name ∧ d = vs.length)) ∧
      ∀ env ix v, ix.length = shape.length → vs[env name]? = some v → den w env ix = den v env ix := by
  obtain ⟨s, h1, h2, h3⟩ := allSizes_spec hf
  cases vs with
  | nil => exact absurd rfl hne
  | cons v0 vs =>
    unfold stack
    simp only
    rw [h1]
    simp only
    rw [hshape v0 (by simp)]
    generalize hF : (fun (env : Name → Nat) (ix : List Nat) =>
      den ((v0 :: vs).getD (ix.headD 0) v0) env ix.tail) = F
    obtain ⟨w1, w2, w3⟩ := vec_wf (s := s) ((v0 :: vs).length :: shape) F h2
    have hz : ∀ n d, (d, some n) ∈ (vec s ((v0 :: vs).length :: shape) F).shape.zip [some name] ↔
        n = name ∧ d = (v0 :: vs).length := by
      intro n d
      rw [w2]
      simp [and_comm]
    obtain ⟨w, g1, g2, g3, g4, g5⟩ := getitem_ok w1 [some name] (by rw [w2]; simp) (by
      intro n d e hd he
      rw [w3, h3, hz] at hd he
      rcases hd with ⟨v, hv, hd⟩ | hd
      · rcases he with ⟨v', hv', he⟩ | he
        · exact hf v hv v' hv' n d e hd he
        · obtain ⟨rfl, rfl⟩ := he
          exact absurd hd (hfresh v hv d)
      · rcases he with ⟨v', hv', he⟩ | he
        · obtain ⟨rfl, rfl⟩ := hd
          exact absurd he (hfresh v' hv' e)
        · rw [hd.2, he.2])
    have hpad : pad (vec s ((v0 :: vs).length :: shape) F).shape.length [some name] =
        some name :: List.replicate shape.length none := by
      rw [w2]; simp [pad]
    rw [hpad] at g3 g5
    refine ⟨w, g1, g2, ?_, ?_, ?_⟩
    · rw [g3, w2]
      simp only [visible]
      exact visible_all shape
    · intro n d
      rw [g4, w3, h3, hz]
    · intro env ix v hix hv
      rw [g5]
      have hc := coords_none env shape.length [] ix [] hix
      simp only [List.append_nil, coords] at hc
      simp only [coords, hc]
      obtain ⟨env1, e1, e2⟩ := vec_den (s := s) ((v0 :: vs).length :: shape) F env (env name :: ix) (by simp [hix])
      rw [e2, ← hF]
      simp only [List.headD_cons, List.tail_cons]
      rw [List.getD_eq_getElem?_getD, hv]
      simp only [Option.getD_some]
      have hvm : v ∈ v0 :: vs := List.mem_of_getElem? hv
      unfold den
      rw [coords_congr v.dims env1 env ix]
      intro n hn
      obtain ⟨d, ho⟩ := dims_occurs (hwf v hvm) hn
      exact e1 n (List.mem_map.2 ⟨(n, d), (h3 n d).2 ⟨v, hvm, ho⟩, rfl⟩)

/-- Without values, `torch.stack` raises RuntimeError; for a name whose dimensions in the values differ in size there is a
ValueError. -/
theorem C57_raises (name : Name) : stack ([] : List (Val α)) name = .error .runtime ∧
    ∀ (vs : List (Val α)) (v w : Val α) (n : Name) (d e : Nat), v ∈ vs → w ∈ vs → Occurs v n d → Occurs w n e → d ≠ e →
      stack vs name = .error .value := by
  refine ⟨rfl, fun vs v w n d e hv hw hd he hne => ?_⟩
  have hnone : allSizes vs = none := by
    cases hs : allSizes vs with
    | none => rfl
    | some s =>
      exfalso
      exact hne (sizesLoop_functional _ [] s (by simp) hs n d e (.inr (List.mem_flatMap.2 ⟨v, hv, hd⟩))
        (.inr (List.mem_flatMap.2 ⟨w, hw, he⟩)))
  cases vs with
  | nil => cases hv
  | cons x xs => simp only [stack, hnone]

/-- Stacking `x[a()]` and `y`. -/
example : (stack [(⟨⟨[3, 2], id⟩, [some "a", none]⟩ : Val (List Nat)), plain ⟨[2], fun ix => 9 :: ix⟩] "s").toOption.map
    (fun w => (w.sizes, w.shape, den w (fun n => if n = "s" then 0 else 2) [1],
      den w (fun n => if n = "s" then 1 else 2) [1])) =
    some (some [("a", 3), ("s", 2)], [2], [2, 1], [9, 1]) := by decide

end Verif.Indexed.Named
