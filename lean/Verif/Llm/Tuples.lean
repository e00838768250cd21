/-!
# C46: encoding of tuples

Model of `_pydantic_type_tuple` (`handlers/llm/encoding.py` 297-384): the validators and serialisers of `tuple[…]` with
finitely many items and of `NamedTuple` classes, as used through `pydantic.TypeAdapter(Encodable[ty])`.

* Items of `tuple[…]` are encoded by `Encodable` again (so tuples may be nested), fields of named tuples by pydantic itself.
  All other types are arbitrary codecs (`base`).
* Keys: `"item_i"` is `item i`, field names are numbers.
* What other objects do when iterated, indexed or asked for attributes is arbitrary.
-/

namespace Verif.Llm

/-- Keys of objects. -/
inductive TKey where
  | item (i : Nat)
  | name (n : Nat)
deriving DecidableEq

/-- Python values. -/
inductive PyVal where
  | atom (n : Nat)
  | tup (l : List PyVal)
  | list (l : List PyVal)
  | nt (cls : Nat) (l : List PyVal)
  | dict (l : List (TKey × PyVal))

/-- What may be raised. -/
inductive TErr where
  | key
  | index
  | type
  | base (n : Nat)
deriving DecidableEq

/-- Types. -/
inductive TTy where
  | base (b : Nat)
  | tup (ts : List TTy)
  | nt (cls : Nat) (fs : List (Nat × Nat))

/-- The codecs of other types, the fields of named tuple classes, and what other objects do. -/
structure TEnv where
  dump : Nat → PyVal → Except TErr PyVal
  load : Nat → PyVal → Except TErr PyVal
  fields : Nat → List Nat
  iter : PyVal → Except TErr (List PyVal)
  item : PyVal → TKey → Except TErr PyVal
  attr : PyVal → Nat → Except TErr PyVal

/-- The items of a tuple (also a named one) or list. -/
def PyVal.seq : PyVal → Option (List PyVal)
  | .tup l => some l
  | .list l => some l
  | .nt _ l => some l
  | _ => none

/-- `enumerate(value)`. -/
def TEnv.iterate (E : TEnv) (v : PyVal) : Except TErr (List PyVal) :=
  match v.seq with
  | some l => .ok l
  | none => E.iter v

/-- `getattr(value, f)`. -/
def TEnv.getattr (E : TEnv) (v : PyVal) (f : Nat) : Except TErr PyVal :=
  match v with
  | .nt cls l =>
    match ((E.fields cls).zip l).lookup f with
    | some x => .ok x
    | none => E.attr v f
  | _ => E.attr v f

/-- `value[key]` for a `dict`, or anything else. -/
def TEnv.getitem (E : TEnv) (v : PyVal) (k : TKey) : Except TErr PyVal :=
  match v with
  | .dict d =>
    match d.lookup k with
    | some x => .ok x
    | none => .error .key
  | _ => E.item v k

/-- The entries `item_i` from `i` on. -/
def numbered (i : Nat) : List PyVal → List (TKey × PyVal)
  | [] => []
  | v :: vs => (.item i, v) :: numbered (i + 1) vs

/-- `_nt_serialize` (330-336). -/
def dumpFields (E : TEnv) (v : PyVal) : List (Nat × Nat) → Except TErr (List (TKey × PyVal))
  | [] => .ok []
  | (f, b) :: fs =>
    match E.getattr v f with
    | .error e => .error e
    | .ok x =>
      match E.dump b x with
      | .error e => .error e
      | .ok j =>
        match dumpFields E v fs with
        | .error e => .error e
        | .ok r => .ok ((.name f, j) :: r)

/-- The comprehension of `_nt_validate` (324-327). -/
def loadFields (E : TEnv) (v : PyVal) : List (Nat × Nat) → Except TErr (List PyVal)
  | [] => .ok []
  | (f, b) :: fs =>
    match E.getitem v (.name f) with
    | .error e => .error e
    | .ok j =>
      match E.load b j with
      | .error e => .error e
      | .ok x =>
        match loadFields E v fs with
        | .error e => .error e
        | .ok r => .ok (x :: r)

mutual

/-- `dump_python(value)` at a type: `_serialize` (373-377). -/
def TTy.dump (E : TEnv) : TTy → PyVal → Except TErr PyVal
  | .base b, v => E.dump b v
  | .tup ts, v =>
    match E.iterate v with
    | .error e => .error e
    | .ok vs =>
      match dumpItems E ts 0 vs with
      | .error e => .error e
      | .ok d => .ok (.dict d)
  | .nt _ fs, v =>
    match dumpFields E v fs with
    | .error e => .error e
    | .ok d => .ok (.dict d)
termination_by structural t => t

/-- The comprehension of `_serialize`; `adapters[i]` may be missing. -/
def dumpItems (E : TEnv) : List TTy → Nat → List PyVal → Except TErr (List (TKey × PyVal))
  | _, _, [] => .ok []
  | [], _, _ :: _ => .error .index
  | t :: ts, i, v :: vs =>
    match TTy.dump E t v with
    | .error e => .error e
    | .ok j =>
      match dumpItems E ts (i + 1) vs with
      | .error e => .error e
      | .ok d => .ok ((.item i, j) :: d)
termination_by structural ts => ts

end

mutual

/-- `validate_python(value)` at a type: `_validate` (365-371), `_nt_validate` (320-328). -/
def TTy.load (E : TEnv) : TTy → PyVal → Except TErr PyVal
  | .base b, v => E.load b v
  | .tup ts, v =>
    match loadItems E (match v.seq with | some vs => .dict (numbered 0 vs) | none => v) ts 0 with
    | .error e => .error e
    | .ok l => .ok (.tup l)
  | .nt cls fs, v =>
    match loadFields E (match v.seq with
        | some vs => .dict ((fs.map (fun f => TKey.name f.1)).zip vs)
        | none => v) fs with
    | .error e => .error e
    | .ok l => .ok (.nt cls l)
termination_by structural t => t

/-- The generator of `_validate`. -/
def loadItems (E : TEnv) (v : PyVal) : List TTy → Nat → Except TErr (List PyVal)
  | [], _ => .ok []
  | t :: ts, i =>
    match E.getitem v (.item i) with
    | .error e => .error e
    | .ok j =>
      match TTy.load E t j with
      | .error e => .error e
      | .ok x =>
        match loadItems E v ts (i + 1) with
        | .error e => .error e
        | .ok r => .ok (x :: r)
termination_by structural ts => ts

end

/-! ## What is stated -/

mutual

/-- Values of a type. For other types: those that their codec gives back. -/
inductive Fits (E : TEnv) : TTy → PyVal → Prop where
  | base (b : Nat) (v j : PyVal) : E.dump b v = .ok j → E.load b j = .ok v → Fits E (.base b) v
  | tup (ts : List TTy) (vs : List PyVal) : FitsAll E ts vs → Fits E (.tup ts) (.tup vs)
  | nt (cls : Nat) (fs : List (Nat × Nat)) (vs : List PyVal) : E.fields cls = fs.map Prod.fst →
      (fs.map Prod.fst).Nodup → FitsAll E (fs.map (fun f => .base f.2)) vs → Fits E (.nt cls fs) (.nt cls vs)

/-- Item by item. -/
inductive FitsAll (E : TEnv) : List TTy → List PyVal → Prop where
  | nil : FitsAll E [] []
  | cons (t : TTy) (ts : List TTy) (v : PyVal) (vs : List PyVal) : Fits E t v → FitsAll E ts vs →
      FitsAll E (t :: ts) (v :: vs)

end

/-! ## Proofs -/

theorem dumpItems_keys {E : TEnv} {ts : List TTy} {i : Nat} {vs : List PyVal} {d : List (TKey × PyVal)}
    (h : dumpItems E ts i vs = .ok d) : d.map Prod.fst = (List.range' i vs.length).map .item := by
  induction vs generalizing ts i d with
  | nil => cases ts <;> (rw [dumpItems] at h; cases h; rfl)
  | cons v vs ih =>
    cases ts with
    | nil => rw [dumpItems] at h; cases h
    | cons t ts =>
      rw [dumpItems] at h
      cases h1 : TTy.dump E t v with
      | error e => rw [h1] at h; cases h
      | ok j =>
        rw [h1] at h
        simp only at h
        cases h2 : dumpItems E ts (i + 1) vs with
        | error e => rw [h2] at h; cases h
        | ok d' =>
          rw [h2] at h; cases h
          rw [List.map_cons, ih h2, List.length_cons, List.range'_succ, List.map_cons]

theorem getitem_skip {E : TEnv} {d : List (TKey × PyVal)} {k k' : TKey} {x : PyVal} (h : k ≠ k') :
    E.getitem (.dict ((k', x) :: d)) k = E.getitem (.dict d) k := by
  unfold TEnv.getitem
  simp only [List.lookup_cons]
  rw [beq_eq_false_iff_ne.2 h]

theorem getitem_here {E : TEnv} {d : List (TKey × PyVal)} {k : TKey} {x : PyVal} :
    E.getitem (.dict ((k, x) :: d)) k = .ok x := by
  unfold TEnv.getitem
  simp

/-- Items that come later are not affected by an earlier entry. -/
theorem loadItems_skip {E : TEnv} {d : List (TKey × PyVal)} {x : PyVal} (ts : List TTy) (i j : Nat) (h : i < j) :
    loadItems E (.dict ((.item i, x) :: d)) ts j = loadItems E (.dict d) ts j := by
  induction ts generalizing j with
  | nil => rw [loadItems, loadItems]
  | cons t ts ih =>
    rw [loadItems, loadItems, getitem_skip (by simp; omega), ih (j + 1) (by omega)]

theorem loadFields_skip {E : TEnv} {d : List (TKey × PyVal)} {x : PyVal} (fs : List (Nat × Nat)) (f : Nat)
    (h : f ∉ fs.map Prod.fst) :
    loadFields E (.dict ((.name f, x) :: d)) fs = loadFields E (.dict d) fs := by
  induction fs with
  | nil => rw [loadFields, loadFields]
  | cons g fs ih =>
    obtain ⟨g, b⟩ := g
    simp only [List.map_cons, List.mem_cons, not_or] at h
    rw [loadFields, loadFields, getitem_skip (by simpa using Ne.symm h.1), ih h.2]

theorem fitsAll_base {E : TEnv} {b : Nat} {bs : List TTy} {vs : List PyVal} (h : FitsAll E (.base b :: bs) vs) :
    ∃ v j l, vs = v :: l ∧ E.dump b v = .ok j ∧ E.load b j = .ok v ∧ FitsAll E bs l := by
  cases h with
  | cons t ts v vs h1 h2 =>
    cases h1 with
    | base b v j a c => exact ⟨v, j, vs, rfl, a, c, h2⟩

theorem getattr_skip {E : TEnv} {cls : Nat} {l : List PyVal} {f : Nat} {x : PyVal}
    (h : ((E.fields cls).zip l).lookup f = some x) : E.getattr (.nt cls l) f = .ok x := by
  unfold TEnv.getattr
  simp only [h]

/-- Named tuples: the fields of a value, read one by one. -/
theorem fields_round {E : TEnv} (w : PyVal) (fs : List (Nat × Nat)) (vs : List PyVal)
    (hn : (fs.map Prod.fst).Nodup) (hf : FitsAll E (fs.map (fun f => .base f.2)) vs)
    (ha : ∀ f x, ((fs.map Prod.fst).zip vs).lookup f = some x → E.getattr w f = .ok x) :
    ∃ d, dumpFields E w fs = .ok d ∧ d.map Prod.fst = fs.map (fun f => TKey.name f.1) ∧
      loadFields E (.dict d) fs = .ok vs := by
  induction fs generalizing vs with
  | nil => cases hf; exact ⟨[], by rw [dumpFields], rfl, by rw [loadFields]⟩
  | cons g fs ih =>
    obtain ⟨f, b⟩ := g
    obtain ⟨v, j, l, rfl, h1, h2, h3⟩ := fitsAll_base hf
    rw [List.map_cons, List.nodup_cons] at hn
    have hv : E.getattr w f = .ok v := ha f v (by simp)
    have ha' : ∀ g x, ((fs.map Prod.fst).zip l).lookup g = some x → E.getattr w g = .ok x := by
      intro g x hg
      apply ha g x
      rw [List.map_cons, List.zip_cons_cons, List.lookup_cons]
      have hne : g ≠ f := by
        intro e
        apply hn.1
        rw [← e]
        have hm : ∀ (ks : List Nat) (l : List PyVal), (ks.zip l).lookup g = some x → g ∈ ks := by
          intro ks
          induction ks with
          | nil => intro l h; simp at h
          | cons k ks ih =>
            intro l h
            cases l with
            | nil => simp at h
            | cons y l =>
              rw [List.zip_cons_cons, List.lookup_cons] at h
              by_cases hk : g = k
              · simp [hk]
              · rw [beq_eq_false_iff_ne.2 hk] at h
                exact List.mem_cons_of_mem _ (ih l h)
        exact hm _ _ hg
      rw [beq_eq_false_iff_ne.2 hne]
      exact hg
    obtain ⟨d, k1, k2, k3⟩ := ih l hn.2 h3 ha'
    refine ⟨(.name f, j) :: d, ?_, ?_, ?_⟩
    · rw [dumpFields]; simp only [hv, h1, k1]
    · simp [k2]
    · rw [loadFields, getitem_here]
      simp only [h2]
      rw [loadFields_skip _ _ hn.1, k3]

mutual

theorem dump_load {E : TEnv} : ∀ (t : TTy) (v : PyVal), Fits E t v → ∃ j, t.dump E v = .ok j ∧ t.load E j = .ok v
  | .base b, v, h => by
    cases h with
    | base b v j a c => exact ⟨j, by rw [TTy.dump]; exact a, by rw [TTy.load]; exact c⟩
  | .tup ts, v, h => by
    cases h with
    | tup ts vs hf =>
      obtain ⟨d, h1, h2⟩ := dump_load_all ts vs hf 0
      refine ⟨.dict d, ?_, ?_⟩
      · rw [TTy.dump]; simp only [TEnv.iterate, PyVal.seq, h1]
      · rw [TTy.load]; simp only [PyVal.seq, h2]
  | .nt cls fs, v, h => by
    cases h with
    | nt cls fs vs h1 h2 h3 =>
      obtain ⟨d, k1, -, k3⟩ := fields_round (E := E) (.nt cls vs) fs vs h2 h3
        (fun f x hx => getattr_skip (by rw [h1]; exact hx))
      refine ⟨.dict d, ?_, ?_⟩
      · rw [TTy.dump]; simp only [k1]
      · rw [TTy.load]; simp only [PyVal.seq, k3]
termination_by structural t => t

theorem dump_load_all {E : TEnv} : ∀ (ts : List TTy) (vs : List PyVal), FitsAll E ts vs → ∀ i,
    ∃ d, dumpItems E ts i vs = .ok d ∧ loadItems E (.dict d) ts i = .ok vs
  | [], vs, h => by
    cases h
    intro i
    exact ⟨[], by rw [dumpItems], by rw [loadItems]⟩
  | t :: ts, vs, h => by
    cases h with
    | cons _ _ v vs h1 h2 =>
      intro i
      obtain ⟨j, a, b⟩ := dump_load t v h1
      obtain ⟨d, c, e⟩ := dump_load_all ts vs h2 (i + 1)
      refine ⟨(.item i, j) :: d, ?_, ?_⟩
      · rw [dumpItems]; simp only [a, c]
      · rw [loadItems, getitem_here]
        simp only [b]
        rw [loadItems_skip ts i (i + 1) (by omega), e]
termination_by structural ts => ts

end

theorem dumpItems_length {E : TEnv} (ts : List TTy) (i : Nat) (vs : List PyVal) (d : List (TKey × PyVal))
    (h : dumpItems E ts i vs = .ok d) : vs.length ≤ ts.length := by
  induction vs generalizing ts i d with
  | nil => simp
  | cons v vs ih =>
    cases ts with
    | nil => rw [dumpItems] at h; cases h
    | cons t ts =>
      rw [dumpItems] at h
      cases h1 : TTy.dump E t v with
      | error e => rw [h1] at h; cases h
      | ok j =>
        rw [h1] at h
        simp only at h
        cases h2 : dumpItems E ts (i + 1) vs with
        | error e => rw [h2] at h; cases h
        | ok d' => simpa using ih ts _ _ h2

/-- Decoding items needs every one of them. -/
theorem loadItems_needs {E : TEnv} (w : PyVal) (ts : List TTy) (i : Nat) (l : List PyVal)
    (h : loadItems E w ts i = .ok l) :
    l.length = ts.length ∧ ∀ k, k < ts.length → ∃ j, E.getitem w (.item (i + k)) = .ok j := by
  induction ts generalizing i l with
  | nil => rw [loadItems] at h; cases h; simp
  | cons t ts ih =>
    rw [loadItems] at h
    cases h1 : E.getitem w (.item i) with
    | error e => rw [h1] at h; cases h
    | ok j =>
      rw [h1] at h
      simp only at h
      cases h2 : t.load E j with
      | error e => rw [h2] at h; cases h
      | ok x =>
        rw [h2] at h
        simp only at h
        cases h3 : loadItems E w ts (i + 1) with
        | error e => rw [h3] at h; cases h
        | ok r =>
          rw [h3] at h; cases h
          obtain ⟨k1, k2⟩ := ih (i + 1) r h3
          refine ⟨by simp [k1], ?_⟩
          intro k hk
          cases k with
          | zero => exact ⟨j, h1⟩
          | succ k =>
            obtain ⟨j', hj⟩ := k2 k (by simpa using hk)
            exact ⟨j', by rw [← hj]; congr 2; omega⟩

theorem loadFields_needs {E : TEnv} (w : PyVal) (fs : List (Nat × Nat)) (l : List PyVal)
    (h : loadFields E w fs = .ok l) :
    l.length = fs.length ∧ ∀ f ∈ fs.map Prod.fst, ∃ j, E.getitem w (.name f) = .ok j := by
  induction fs generalizing l with
  | nil => rw [loadFields] at h; cases h; simp
  | cons g fs ih =>
    obtain ⟨f, b⟩ := g
    rw [loadFields] at h
    cases h1 : E.getitem w (.name f) with
    | error e => rw [h1] at h; cases h
    | ok j =>
      rw [h1] at h
      simp only at h
      cases h2 : E.load b j with
      | error e => rw [h2] at h; cases h
      | ok x =>
        rw [h2] at h
        simp only at h
        cases h3 : loadFields E w fs with
        | error e => rw [h3] at h; cases h
        | ok r =>
          rw [h3] at h; cases h
          obtain ⟨k1, k2⟩ := ih r h3
          refine ⟨by simp [k1], ?_⟩
          intro g hg
          rcases List.mem_cons.1 hg with rfl | hg
          · exact ⟨j, h1⟩
          · exact k2 g hg

theorem lookup_isSome {d : List (TKey × PyVal)} {k : TKey} {E : TEnv} {j : PyVal}
    (h : E.getitem (.dict d) k = .ok j) : k ∈ d.map Prod.fst := by
  unfold TEnv.getitem at h
  simp only at h
  induction d with
  | nil => simp at h
  | cons x d ih =>
    obtain ⟨k', x⟩ := x
    by_cases e : k = k'
    · simp [e]
    · rw [List.lookup_cons, beq_eq_false_iff_ne.2 e] at h
      exact List.mem_cons_of_mem _ (ih h)

theorem numbered_keys (i : Nat) (vs : List PyVal) : (numbered i vs).map Prod.fst = (List.range' i vs.length).map .item := by
  induction vs generalizing i with
  | nil => rfl
  | cons v vs ih => rw [numbered, List.map_cons, ih, List.length_cons, List.range'_succ, List.map_cons]

/-- Decoding the encoding of a value of a type, with tuples and named tuples at any depth, gives the value. -/
theorem C46_round_trip (E : TEnv) (t : TTy) (v : PyVal) (h : Fits E t v) :
    ∃ j, t.dump E v = .ok j ∧ t.load E j = .ok v := dump_load t v h

/-- The encoding of a tuple is an object with the keys `item_0`, …, in order. -/
theorem C46_object (E : TEnv) (ts : List TTy) (vs : List PyVal) (j : PyVal)
    (h : (TTy.tup ts).dump E (.tup vs) = .ok j) :
    ∃ d, j = .dict d ∧ d.map Prod.fst = (List.range vs.length).map .item ∧ vs.length ≤ ts.length := by
  rw [TTy.dump] at h
  simp only [TEnv.iterate, PyVal.seq] at h
  cases hd : dumpItems E ts 0 vs with
  | error e => rw [hd] at h; cases h
  | ok d =>
    rw [hd] at h; cases h
    exact ⟨d, rfl, by rw [dumpItems_keys hd, List.range_eq_range'], dumpItems_length ts 0 vs d hd⟩

theorem dumpFields_keys (E : TEnv) (v : PyVal) : ∀ (fs : List (Nat × Nat)) (d : List (TKey × PyVal)),
    dumpFields E v fs = .ok d → d.map Prod.fst = fs.map (fun f => .name f.1) := by
  intro fs
  induction fs with
  | nil => intro d h; cases h; rfl
  | cons f fs ih =>
    intro d h
    obtain ⟨f, b⟩ := f
    rw [dumpFields] at h
    split at h
    · cases h
    · split at h
      · cases h
      · split at h
        · cases h
        · rename_i r hr
          cases h
          simp [ih r hr]

/-- The encoding of a NamedTuple is an object with all the fields as keys, in order; if a field cannot be read or encoded
there is none. -/
theorem C46_fields (E : TEnv) (cls : Nat) (fs : List (Nat × Nat)) (v j : PyVal) (h : (TTy.nt cls fs).dump E v = .ok j) :
    ∃ d, j = .dict d ∧ d.map Prod.fst = fs.map (fun f => .name f.1) := by
  rw [TTy.dump] at h
  split at h
  · cases h
  · rename_i d hd
    cases h
    exact ⟨d, rfl, dumpFields_keys E v fs d hd⟩

/-- What is decoded at a tuple type is a tuple with as many items as the type. -/
theorem C46_arity (E : TEnv) (ts : List TTy) (v w : PyVal) (h : (TTy.tup ts).load E v = .ok w) :
    ∃ l, w = .tup l ∧ l.length = ts.length := by
  rw [TTy.load] at h
  generalize (match v.seq with | some vs => PyVal.dict (numbered 0 vs) | none => v) = u at h
  cases hl : loadItems E u ts 0 with
  | error e => rw [hl] at h; cases h
  | ok l => rw [hl] at h; cases h; exact ⟨l, rfl, (loadItems_needs _ _ _ _ hl).1⟩

/-- Objects and sequences with missing items are rejected. -/
theorem C46_missing (E : TEnv) (ts : List TTy) (d : List (TKey × PyVal)) (i : Nat) (hi : i < ts.length)
    (hd : TKey.item i ∉ d.map Prod.fst) (w : PyVal) : (TTy.tup ts).load E (.dict d) ≠ .ok w := by
  intro h
  rw [TTy.load] at h
  simp only [PyVal.seq] at h
  cases hl : loadItems E (.dict d) ts 0 with
  | error e => rw [hl] at h; cases h
  | ok l =>
    obtain ⟨j, hj⟩ := (loadItems_needs _ _ _ _ hl).2 i hi
    rw [Nat.zero_add] at hj
    exact hd (lookup_isSome hj)

/-- The same for sequences. -/
theorem C46_short (E : TEnv) (ts : List TTy) (v : PyVal) (vs : List PyVal) (hv : v.seq = some vs)
    (hl : vs.length < ts.length) (w : PyVal) : (TTy.tup ts).load E v ≠ .ok w := by
  intro h
  have : (TTy.tup ts).load E (.dict (numbered 0 vs)) = .ok w := by
    rw [TTy.load] at h ⊢
    simp only [hv] at h
    simpa only [PyVal.seq] using h
  exact C46_missing E ts _ vs.length hl (by rw [numbered_keys]; simp [List.mem_range']) w this

/-- Objects that lack a field of a named tuple are rejected. -/
theorem C46_missing_field (E : TEnv) (cls : Nat) (fs : List (Nat × Nat)) (d : List (TKey × PyVal)) (f : Nat)
    (hf : f ∈ fs.map Prod.fst) (hd : TKey.name f ∉ d.map Prod.fst) (w : PyVal) :
    (TTy.nt cls fs).load E (.dict d) ≠ .ok w := by
  intro h
  rw [TTy.load] at h
  simp only [PyVal.seq] at h
  cases hl : loadFields E (.dict d) fs with
  | error e => rw [hl] at h; cases h
  | ok l =>
    obtain ⟨j, hj⟩ := (loadFields_needs _ _ _ hl).2 f hf
    exact hd (lookup_isSome hj)

/-! ## Values that are decoded already -/

theorem loadFields_zip {E : TEnv} (hb : ∀ b v, Fits E (.base b) v → E.load b v = .ok v) :
    ∀ (fs : List (Nat × Nat)) (vs : List PyVal), (fs.map Prod.fst).Nodup →
    FitsAll E (fs.map (fun f => .base f.2)) vs →
    loadFields E (.dict ((fs.map (fun f => TKey.name f.1)).zip vs)) fs = .ok vs := by
  intro fs
  induction fs with
  | nil => intro vs _ h; cases h; rw [loadFields]
  | cons g fs ih =>
    obtain ⟨f, b⟩ := g
    intro vs hn h
    cases h with
    | cons _ _ v vs h1 h2 =>
      rw [List.map_cons, List.nodup_cons] at hn
      rw [List.map_cons, List.zip_cons_cons, loadFields, getitem_here]
      simp only [hb b v h1]
      rw [loadFields_skip _ _ hn.1, ih vs hn.2 h2]

mutual

theorem load_fits {E : TEnv} (hb : ∀ b v, Fits E (.base b) v → E.load b v = .ok v) :
    ∀ (t : TTy) (v : PyVal), Fits E t v → t.load E v = .ok v
  | .base b, v, h => by rw [TTy.load]; exact hb b v h
  | .tup ts, v, h => by
    cases h with
    | tup ts vs hf =>
      rw [TTy.load]
      simp only [PyVal.seq, load_fits_all hb ts vs hf 0]
  | .nt cls fs, v, h => by
    cases h with
    | nt cls fs vs h1 h2 h3 =>
      rw [TTy.load]
      simp only [PyVal.seq, loadFields_zip hb fs vs h2 h3]
termination_by structural t => t

theorem load_fits_all {E : TEnv} (hb : ∀ b v, Fits E (.base b) v → E.load b v = .ok v) :
    ∀ (ts : List TTy) (vs : List PyVal), FitsAll E ts vs → ∀ i,
    loadItems E (.dict (numbered i vs)) ts i = .ok vs
  | [], vs, h => by cases h; intro i; rw [loadItems]
  | t :: ts, vs, h => by
    cases h with
    | cons _ _ v vs h1 h2 =>
      intro i
      rw [numbered, loadItems, getitem_here]
      simp only [load_fits hb t v h1]
      rw [loadItems_skip ts i (i + 1) (by omega), load_fits_all hb ts vs h2 (i + 1)]
termination_by structural ts => ts

end

/-- Values are accepted as they are if those of the other types are. -/
theorem C46_values (E : TEnv) (hb : ∀ b v, Fits E (.base b) v → E.load b v = .ok v) (t : TTy) (v : PyVal)
    (h : Fits E t v) : t.load E v = .ok v := load_fits hb t v h

namespace TupleExample

/-- All base types take everything as it is; a class 5 with the fields 1 and 2. -/
def E : TEnv where
  dump _ v := .ok v
  load _ v := .ok v
  fields _ := [1, 2]
  iter _ := .error .type
  item _ _ := .error .type
  attr _ _ := .error .type

def pair : TTy := .tup [.base 0, .base 0]
def point : TTy := .nt 5 [(1, 0), (2, 0)]
def v : PyVal := .tup [.nt 5 [.atom 7, .atom 8], .tup [.atom 3, .atom 4]]

example : (TTy.tup [point, pair]).dump E v = .ok (.dict
    [(.item 0, .dict [(.name 1, .atom 7), (.name 2, .atom 8)]),
     (.item 1, .dict [(.item 0, .atom 3), (.item 1, .atom 4)])]) := rfl

example : Fits E (.tup [point, pair]) v :=
  .tup _ _ (.cons _ _ _ _ (.nt _ _ _ rfl (by simp)
    (.cons _ _ _ _ (.base _ _ _ rfl rfl) (.cons _ _ _ _ (.base _ _ _ rfl rfl) .nil)))
    (.cons _ _ _ _ (.tup _ _ (.cons _ _ _ _ (.base _ _ _ rfl rfl) (.cons _ _ _ _ (.base _ _ _ rfl rfl) .nil))) .nil))

end TupleExample

open TupleExample

/-- Extra items are not rejected, although the schema forbids them: of an object, … -/
theorem C46_extra_fails : ∃ (E : TEnv) (ts : List TTy) (d : List (TKey × PyVal)) (k : TKey) (w : PyVal),
    k ∈ d.map Prod.fst ∧ k ∉ (List.range ts.length).map TKey.item ∧ (TTy.tup ts).load E (.dict d) = .ok w :=
  ⟨E, [.base 0], [(.item 0, .atom 1), (.name 9, .atom 2)], .name 9, .tup [.atom 1], by simp, by simp, rfl⟩

/-- … of a sequence, … -/
theorem C46_long_fails : ∃ (E : TEnv) (ts : List TTy) (vs : List PyVal) (w : PyVal), ts.length < vs.length ∧
    (TTy.tup ts).load E (.list vs) = .ok w :=
  ⟨E, [.base 0], [.atom 1, .atom 2], .tup [.atom 1], by simp, rfl⟩

/-- … and of an object or sequence for a named tuple. -/
theorem C46_extra_field_fails : ∃ (E : TEnv) (cls : Nat) (fs : List (Nat × Nat)) (d : List (TKey × PyVal))
    (vs : List PyVal) (w : PyVal),
    fs.length < d.length ∧ (TTy.nt cls fs).load E (.dict d) = .ok w ∧
    fs.length < vs.length ∧ (TTy.nt cls fs).load E (.list vs) = .ok w :=
  ⟨E, 5, [(1, 0)], [(.name 1, .atom 1), (.name 9, .atom 2)], [.atom 1, .atom 2], .nt 5 [.atom 1], by simp, rfl, by simp, rfl⟩

/-- A value with too few items is encoded, but cannot be decoded. -/
theorem C46_short_fails : ∃ (E : TEnv) (t : TTy) (v j : PyVal), t.dump E v = .ok j ∧ ∀ w, t.load E j ≠ .ok w :=
  ⟨E, pair, .tup [.atom 1], .dict [(.item 0, .atom 1)], rfl,
    fun w => C46_missing E [.base 0, .base 0] [(.item 0, .atom 1)] 1 (by simp) (by simp) w⟩

end Verif.Llm
