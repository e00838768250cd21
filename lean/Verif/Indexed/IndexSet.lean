/-!
# C34: index sets

Model of `handlers/indexed.py`: `IndexSet.__init__` 48-54 and `union` 63-95.

A dict is a list of entries with the first entry of a key in force, a set of worlds is a list read up to
membership. The order in which `union` goes through a set of names is the order of first occurrence; names and
worlds are only compared with `==`, so no result depends on it up to equality of dicts. `IndexSet` takes the
names as keyword arguments, so `self` is not a possible name.
-/

namespace Verif.Indexed

/-- A set of worlds. -/
abbrev Worlds := List Int

/-- A `dict[str, set[int]]`. -/
abbrev IndexSet := List (String × Worlds)

/-- An argument of the constructor: an int or a collection of ints. -/
inductive Arg where
  | int (w : Int)
  | many (ws : List Int)

/-- `{vs} if isinstance(vs, int) else set(vs)` (51). -/
def Arg.worlds : Arg → Worlds
  | .int w => [w]
  | .many ws => ws

/-- `d[k] = v`. -/
def setItem (d : IndexSet) (k : String) (v : Worlds) : IndexSet :=
  (k, v) :: d.filter (fun p => p.1 != k)

/-- The loop of `IndexSet.__init__` (50-53): empty entries are dropped. -/
def construct (mapping : List (String × Arg)) : IndexSet :=
  mapping.foldl (fun d p => if p.2.worlds.length > 0 then setItem d p.1 p.2.worlds else d) []

/-- The names of a dict. -/
def names (d : IndexSet) : List String := d.map (·.1)

/-- `set.union(*[vs[k] for vs in indexsets if k in vs])`. -/
def unionAt (sets : List IndexSet) (k : String) : Worlds :=
  sets.flatMap (fun d => (d.lookup k).getD [])

/-- `union(*indexsets)`; `none` for the TypeError of `set.union()` without arguments. -/
def union (sets : List IndexSet) : Option IndexSet :=
  match sets with
  | [] => none
  | sets => some (construct ((sets.flatMap names).eraseDups.map (fun k => (k, .many (unionAt sets k)))))

/-! ## Specification -/

/-- World `w` is in the index set at name `k`. -/
def Has (d : IndexSet) (k : String) (w : Int) : Prop := ∃ ws, d.lookup k = some ws ∧ w ∈ ws

/-- `k in d`. -/
def Key (d : IndexSet) (k : String) : Prop := ∃ ws, d.lookup k = some ws

/-- `a == b` on dicts of sets. -/
def Same (a b : IndexSet) : Prop := (∀ k, Key a k ↔ Key b k) ∧ ∀ k w, Has a k w ↔ Has b k w

/-- No name has an empty set. -/
def NoEmpty (d : IndexSet) : Prop := ∀ k, Key d k → ∃ w, Has d k w

/-! ## Lemmas -/

theorem lookup_filter (d : IndexSet) (k x : String) :
    (d.filter (fun p => p.1 != k)).lookup x = if x = k then none else d.lookup x := by
  induction d with
  | nil => simp [List.lookup]
  | cons p d ih =>
    simp only [List.filter_cons]
    by_cases h : p.1 = k
    · simp only [h, bne_self_eq_false, Bool.false_eq_true, if_false, ih]
      by_cases hx : x = k
      · simp [hx]
      · simp only [hx, if_false]
        rw [List.lookup, h, beq_eq_false_iff_ne.2 hx]
    · have : (p.1 != k) = true := by simpa using h
      simp only [this, if_true, List.lookup]
      by_cases hp : x = p.1
      · subst hp
        simp [h]
      · simp only [beq_eq_false_iff_ne.2 hp, ih]

theorem lookup_setItem (d : IndexSet) (k : String) (v : Worlds) (x : String) :
    (setItem d k v).lookup x = if x = k then some v else d.lookup x := by
  unfold setItem
  rw [List.lookup]
  by_cases h : x = k
  · simp [h]
  · simp only [beq_eq_false_iff_ne.2 h, if_neg h, lookup_filter]

/-- The constructor step by step. -/
def step (d : IndexSet) (p : String × Arg) : IndexSet :=
  if p.2.worlds.length > 0 then setItem d p.1 p.2.worlds else d

theorem construct_eq (m : List (String × Arg)) : construct m = m.foldl step [] := rfl

theorem lookup_step (d : IndexSet) (p : String × Arg) (x : String) : (step d p).lookup x =
    if x = p.1 ∧ p.2.worlds ≠ [] then some p.2.worlds else d.lookup x := by
  unfold step
  by_cases h : p.2.worlds = []
  · simp [h]
  · have : p.2.worlds.length > 0 := List.length_pos_iff.2 h
    simp [this, lookup_setItem, h]

theorem lookup_foldl {f : String → Arg} : ∀ (ks : List String) (d : IndexSet) (x : String),
    ((ks.map (fun k => (k, f k))).foldl step d).lookup x =
      if x ∈ ks ∧ (f x).worlds ≠ [] then some (f x).worlds else d.lookup x := by
  intro ks
  induction ks with
  | nil => intro d x; simp
  | cons k ks ih =>
    intro d x
    simp only [List.map_cons, List.foldl_cons, ih, lookup_step, List.mem_cons]
    by_cases h1 : x ∈ ks <;> by_cases h2 : (f x).worlds = [] <;> by_cases h3 : x = k
    all_goals first
      | (subst h3; simp [h1, h2])
      | simp [h1, h2, h3]

theorem foldl_noEmpty : ∀ (m : List (String × Arg)) (d : IndexSet), NoEmpty d → NoEmpty (m.foldl step d) := by
  intro m
  induction m with
  | nil => intro d h; exact h
  | cons p m ih =>
    intro d h
    simp only [List.foldl_cons]
    apply ih
    intro k hk
    obtain ⟨ws, hws⟩ := hk
    have hl := lookup_step d p k
    by_cases hc : k = p.1 ∧ p.2.worlds ≠ []
    · rw [if_pos hc] at hl
      obtain ⟨w, hw⟩ := List.exists_mem_of_ne_nil _ hc.2
      exact ⟨w, _, hl, hw⟩
    · rw [if_neg hc] at hl
      rw [hl] at hws
      obtain ⟨w, ws', h1, h2⟩ := h k ⟨ws, hws⟩
      exact ⟨w, ws', by rw [hl]; exact h1, h2⟩

theorem mem_names {d : IndexSet} {k : String} : k ∈ names d ↔ Key d k := by
  unfold names Key
  induction d with
  | nil => simp [List.lookup]
  | cons p d ih =>
    simp only [List.map_cons, List.mem_cons, List.lookup]
    by_cases h : k = p.1
    · simp [h]
    · simp only [h, false_or, beq_eq_false_iff_ne.2 h]
      exact ih

theorem mem_unionAt {sets : List IndexSet} {k : String} {w : Int} :
    w ∈ unionAt sets k ↔ ∃ d ∈ sets, Has d k w := by
  unfold unionAt Has
  rw [List.mem_flatMap]
  constructor
  · rintro ⟨d, hd, h⟩
    cases hl : d.lookup k with
    | none => rw [hl] at h; simp at h
    | some ws => rw [hl] at h; exact ⟨d, hd, ws, hl, h⟩
  · rintro ⟨d, hd, ws, hl, h⟩
    exact ⟨d, hd, by rw [hl]; exact h⟩

theorem lookup_union {sets : List IndexSet} {u : IndexSet} (h : union sets = some u) (k : String) :
    u.lookup k = if unionAt sets k ≠ [] then some (unionAt sets k) else none := by
  have hu : u = ((sets.flatMap names).eraseDups.map (fun k => (k, Arg.many (unionAt sets k)))).foldl step [] := by
    cases sets with
    | nil => cases h
    | cons d ds => simp only [union, Option.some.injEq] at h; rw [← h]; rfl
  rw [hu, lookup_foldl (f := fun k => Arg.many (unionAt sets k))]
  simp only [List.mem_eraseDups, Arg.worlds, List.lookup]
  by_cases hn : unionAt sets k = []
  · simp [hn]
  · have : k ∈ sets.flatMap names := by
      obtain ⟨w, hw⟩ := List.exists_mem_of_ne_nil _ hn
      obtain ⟨d, hd, ws, hl, _⟩ := mem_unionAt.1 hw
      exact List.mem_flatMap.2 ⟨d, hd, mem_names.2 ⟨ws, hl⟩⟩
    simp [hn, this]

theorem has_key {d : IndexSet} {k : String} {w : Int} (h : Has d k w) : Key d k :=
  ⟨h.choose, h.choose_spec.1⟩

/-- Index sets without empty entries are equal if they have the same worlds. -/
theorem same_of_has {a b : IndexSet} (ha : NoEmpty a) (hb : NoEmpty b)
    (h : ∀ k w, Has a k w ↔ Has b k w) : Same a b := by
  refine ⟨fun k => ⟨fun hk => ?_, fun hk => ?_⟩, h⟩
  · obtain ⟨w, hw⟩ := ha k hk
    exact has_key ((h k w).1 hw)
  · obtain ⟨w, hw⟩ := hb k hk
    exact has_key ((h k w).2 hw)

/-! ## Theorems -/

/-- An index set made by the constructor has no empty entries, and the worlds of the given arguments. -/
theorem C34_construct_partial (m : List (String × Arg)) (hm : (m.map (·.1)).Nodup) :
    NoEmpty (construct m) ∧
    ∀ k w, Has (construct m) k w ↔ ∃ a, (k, a) ∈ m ∧ w ∈ a.worlds := by
  refine ⟨foldl_noEmpty m [] (fun k h => by obtain ⟨ws, h⟩ := h; cases h), ?_⟩
  intro k w
  rw [construct_eq]
  have gen : ∀ (m : List (String × Arg)) (d : IndexSet), (m.map (·.1)).Nodup →
      (∀ k a, (k, a) ∈ m → ¬ Key d k) →
      (Has (m.foldl step d) k w ↔ Has d k w ∨ ∃ a, (k, a) ∈ m ∧ w ∈ a.worlds) := by
    intro m
    induction m with
    | nil => intro d _ _; simp
    | cons p m ih =>
      intro d hn hd
      simp only [List.map_cons, List.nodup_cons] at hn
      simp only [List.foldl_cons]
      rw [ih (step d p) hn.2]
      · have hl := lookup_step d p k
        have hs : Has (step d p) k w ↔ Has d k w ∨ (k = p.1 ∧ w ∈ p.2.worlds) := by
          unfold Has
          rw [hl]
          by_cases hk : k = p.1
          · by_cases hw : p.2.worlds = []
            · simp [hw]
            · rw [if_pos ⟨hk, hw⟩]
              have : ¬ Key d k := hd k p.2 (by rw [hk]; simp)
              constructor
              · rintro ⟨ws, e, h⟩; cases e; exact .inr ⟨hk, h⟩
              · rintro (⟨ws, e, _⟩ | ⟨_, h⟩)
                · exact absurd ⟨ws, e⟩ this
                · exact ⟨_, rfl, h⟩
          · rw [if_neg (fun h => hk h.1)]
            simp [hk]
        rw [hs]
        constructor
        · rintro ((h | ⟨h1, h2⟩) | ⟨a, h1, h2⟩)
          · exact .inl h
          · exact .inr ⟨p.2, by rw [h1]; simp, h2⟩
          · exact .inr ⟨a, by simp [h1], h2⟩
        · rintro (h | ⟨a, h1, h2⟩)
          · exact .inl (.inl h)
          · rcases List.mem_cons.1 h1 with h1 | h1
            · refine .inl (.inr ?_); rw [← h1]; exact ⟨rfl, h2⟩
            · exact .inr ⟨a, h1, h2⟩
      · intro k' a ha
        rintro ⟨ws, e⟩
        rw [lookup_step] at e
        split at e
        · next h =>
          apply hn.1
          rw [← h.1]
          exact List.mem_map.2 ⟨(k', a), ha, rfl⟩
        · exact hd k' a (by simp [ha]) ⟨ws, e⟩
  rw [gen m [] hm (fun k a _ h => by obtain ⟨ws, h⟩ := h; cases h)]
  constructor
  · rintro (⟨ws, h, _⟩ | h)
    · cases h
    · exact h
  · exact .inr

/-- `union` of at least one index set: a world is in the result at a name iff it is in one of the arguments at
that name, and no entry of the result is empty. -/
theorem C34_member_partial (d : IndexSet) (ds : List IndexSet) : ∃ u, union (d :: ds) = some u ∧ NoEmpty u ∧
    ∀ k w, Has u k w ↔ ∃ x ∈ d :: ds, Has x k w := by
  refine ⟨_, rfl, ?_⟩
  generalize hu : construct _ = u
  have hU : union (d :: ds) = some u := by rw [← hu]; rfl
  have hl := lookup_union hU
  constructor
  · rintro k ⟨ws, hk⟩
    rw [hl] at hk
    split at hk
    · next hne =>
      obtain ⟨w, hw⟩ := List.exists_mem_of_ne_nil _ hne
      exact ⟨w, _, by rw [hl, if_pos hne], hw⟩
    · cases hk
  · intro k w
    rw [← mem_unionAt]
    unfold Has
    rw [hl]
    constructor
    · rintro ⟨ws, e, h⟩
      split at e
      · cases e; exact h
      · cases e
    · intro h
      rw [if_pos (List.ne_nil_of_mem h)]
      exact ⟨_, rfl, h⟩

theorem union_spec {d : IndexSet} {ds : List IndexSet} {u : IndexSet} (h : union (d :: ds) = some u) :
    NoEmpty u ∧ ∀ k w, Has u k w ↔ ∃ x ∈ d :: ds, Has x k w := by
  obtain ⟨v, h1, h2⟩ := C34_member_partial d ds
  rw [h] at h1
  cases h1
  exact h2

/-- `union(*xs)` depends only on which index sets occur, up to equality, not on the order and the number of
occurrences. -/
theorem C34_arguments_partial {xs ys : List IndexSet} {u v : IndexSet} (hx : union xs = some u)
    (hy : union ys = some v) (h1 : ∀ x ∈ xs, ∃ y ∈ ys, Same x y) (h2 : ∀ y ∈ ys, ∃ x ∈ xs, Same x y) :
    Same u v := by
  cases xs with
  | nil => cases hx
  | cons a as =>
    cases ys with
    | nil => cases hy
    | cons b bs =>
      obtain ⟨hu1, hu2⟩ := union_spec hx
      obtain ⟨hv1, hv2⟩ := union_spec hy
      refine same_of_has hu1 hv1 (fun k w => ?_)
      rw [hu2, hv2]
      constructor
      · rintro ⟨x, hx, h⟩
        obtain ⟨y, hy, hs⟩ := h1 x hx
        exact ⟨y, hy, (hs.2 k w).1 h⟩
      · rintro ⟨y, hy, h⟩
        obtain ⟨x, hx, hs⟩ := h2 y hy
        exact ⟨x, hx, (hs.2 k w).2 h⟩

/-- `union(a, b) == union(b, a)`. -/
theorem C34_comm_partial (a b : IndexSet) :
    ∃ u v, union [a, b] = some u ∧ union [b, a] = some v ∧ Same u v := by
  refine ⟨_, _, rfl, rfl, C34_arguments_partial (xs := [a, b]) (ys := [b, a]) rfl rfl ?_ ?_⟩
  · intro x hx
    refine ⟨x, ?_, ⟨fun _ => Iff.rfl, fun _ _ => Iff.rfl⟩⟩
    simp only [List.mem_cons, List.not_mem_nil, or_false] at hx ⊢
    exact hx.symm
  · intro x hx
    refine ⟨x, ?_, ⟨fun _ => Iff.rfl, fun _ _ => Iff.rfl⟩⟩
    simp only [List.mem_cons, List.not_mem_nil, or_false] at hx ⊢
    exact hx.symm

/-- `union(*as, union(b, *bs), *cs) == union(*as, b, *bs, *cs)`. -/
theorem C34_flatten_partial (as bs cs : List IndexSet) (b : IndexSet) :
    ∃ u v w, union (b :: bs) = some u ∧ union (as ++ u :: cs) = some v ∧
      union (as ++ (b :: bs) ++ cs) = some w ∧ Same v w := by
  obtain ⟨u, hu, _, hu2⟩ := C34_member_partial b bs
  have ex : ∀ l : List IndexSet, l ≠ [] → ∃ v, union l = some v ∧ NoEmpty v ∧
      ∀ k w, Has v k w ↔ ∃ x ∈ l, Has x k w := by
    intro l hl
    cases l with
    | nil => exact absurd rfl hl
    | cons d ds => exact C34_member_partial d ds
  obtain ⟨v, hv, hv1, hv2⟩ := ex (as ++ u :: cs) (by simp)
  obtain ⟨w, hw, hw1, hw2⟩ := ex (as ++ (b :: bs) ++ cs) (by simp)
  have hs : Same v w := by
    refine same_of_has hv1 hw1 (fun k x => ?_)
    rw [hv2, hw2]
    constructor
    · rintro ⟨d, hd, h⟩
      rcases List.mem_append.1 hd with hd | hd
      · exact ⟨d, by simp [hd], h⟩
      · rcases List.mem_cons.1 hd with hd | hd
        · subst hd
          obtain ⟨e, he, h⟩ := (hu2 k x).1 h
          exact ⟨e, by simp only [List.mem_append]; exact .inl (.inr he), h⟩
        · exact ⟨d, by simp [hd], h⟩
    · rintro ⟨d, hd, h⟩
      simp only [List.mem_append] at hd
      rcases hd with (hd | hd) | hd
      · exact ⟨d, by simp [hd], h⟩
      · exact ⟨u, by simp, (hu2 k x).2 ⟨d, hd, h⟩⟩
      · exact ⟨d, by simp [hd], h⟩
  exact ⟨u, v, w, hu, hv, hw, hs⟩

theorem Same.symm {a b : IndexSet} (h : Same a b) : Same b a :=
  ⟨fun k => (h.1 k).symm, fun k w => (h.2 k w).symm⟩

theorem Same.trans {a b c : IndexSet} (h : Same a b) (g : Same b c) : Same a c :=
  ⟨fun k => (h.1 k).trans (g.1 k), fun k w => (h.2 k w).trans (g.2 k w)⟩

/-- `union(a, union(b, c)) == union(union(a, b), c)`. -/
theorem C34_assoc_partial (a b c : IndexSet) : ∃ bc ab u v, union [b, c] = some bc ∧ union [a, bc] = some u ∧
    union [a, b] = some ab ∧ union [ab, c] = some v ∧ Same u v := by
  obtain ⟨bc, u, w, h1, h2, h3, h4⟩ := C34_flatten_partial [a] [c] [] b
  obtain ⟨ab, v, w', g1, g2, g3, g4⟩ := C34_flatten_partial [] [b] [c] a
  have : w = w' := by
    have := h3.symm.trans g3
    simpa using this
  subst this
  exact ⟨bc, ab, u, v, h1, h2, g1, g2, h4.trans g4.symm⟩

/-- `union(a, a) == a`, `union(a, {}) == a == union({}, a)` and `union(a) == a` for index sets without empty
entries, such as those made by the constructor and by `union`. -/
theorem C34_idem_unit_partial {a : IndexSet} (ha : NoEmpty a) :
    (∃ u, union [a, a] = some u ∧ Same u a) ∧ (∃ u, union [a, []] = some u ∧ Same u a) ∧
    (∃ u, union [[], a] = some u ∧ Same u a) ∧ ∃ u, union [a] = some u ∧ Same u a := by
  have key : ∀ d ds, (∀ k w, (∃ x ∈ d :: ds, Has x k w) ↔ Has a k w) →
      ∃ u, union (d :: ds) = some u ∧ Same u a := by
    intro d ds h
    obtain ⟨u, h1, h2, h3⟩ := C34_member_partial d ds
    exact ⟨u, h1, same_of_has h2 ha (fun k w => (h3 k w).trans (h k w))⟩
  have hnil : ∀ k w, ¬ Has [] k w := by rintro k w ⟨ws, h, _⟩; cases h
  refine ⟨key _ _ ?_, key _ _ ?_, key _ _ ?_, key _ _ ?_⟩ <;> intro k w <;> simp [hnil]

/-- `union(a, union(a, b)) == union(a, b)`. -/
theorem C34_absorb_partial (a b : IndexSet) :
    ∃ u v, union [a, b] = some u ∧ union [a, u] = some v ∧ Same v u := by
  obtain ⟨u, h1, h2, h3⟩ := C34_member_partial a [b]
  obtain ⟨v, g1, g2, g3⟩ := C34_member_partial a [u]
  refine ⟨u, v, h1, g1, same_of_has g2 h2 (fun k w => ?_)⟩
  rw [g3]
  constructor
  · rintro ⟨x, hx, h⟩
    simp only [List.mem_cons, List.not_mem_nil, or_false] at hx
    rcases hx with rfl | rfl
    · exact (h3 k w).2 ⟨x, by simp, h⟩
    · exact h
  · intro h
    exact ⟨u, by simp, h⟩

/-- `a` is below `b`. -/
def Below (a b : IndexSet) : Prop := ∀ k w, Has a k w → Has b k w

/-- `union` is the least upper bound. -/
theorem C34_join_partial (d : IndexSet) (ds : List IndexSet) : ∃ u, union (d :: ds) = some u ∧
    ∀ b, Below u b ↔ ∀ x ∈ d :: ds, Below x b := by
  obtain ⟨u, h1, _, h3⟩ := C34_member_partial d ds
  refine ⟨u, h1, fun b => ⟨fun h x hx k w hw => h k w ((h3 k w).2 ⟨x, hx, hw⟩), fun h k w hw => ?_⟩⟩
  obtain ⟨x, hx, hxw⟩ := (h3 k w).1 hw
  exact h x hx k w hxw

/-- `union(IndexSet(a={0, 1}, b={1}), IndexSet(a={1, 2}))`. -/
example : ∃ u, union [construct [("a", .many [0, 1]), ("b", .int 1)], construct [("a", .many [1, 2])]]
    = some u ∧ (∀ w, Has u "a" w ↔ w = 0 ∨ w = 1 ∨ w = 2) ∧ ∀ w, Has u "b" w ↔ w = 1 := by
  refine ⟨_, rfl, ?_, ?_⟩
  · intro w
    constructor
    · rintro ⟨ws, h, hw⟩
      have : ws = [0, 1, 1, 2] := by
        have e : List.lookup "a" (construct (List.map (fun k => (k, Arg.many (unionAt
          [construct [("a", .many [0, 1]), ("b", .int 1)], construct [("a", .many [1, 2])]] k)))
          ((List.flatMap names [construct [("a", .many [0, 1]), ("b", .int 1)],
            construct [("a", .many [1, 2])]])).eraseDups)) = some [0, 1, 1, 2] := by decide
        rw [e] at h; cases h; rfl
      subst this
      simp at hw
      omega
    · intro h
      exact ⟨[0, 1, 1, 2], by decide, by simp; omega⟩
  · intro w
    constructor
    · rintro ⟨ws, h, hw⟩
      have : ws = [1] := by
        have e : List.lookup "b" (construct (List.map (fun k => (k, Arg.many (unionAt
          [construct [("a", .many [0, 1]), ("b", .int 1)], construct [("a", .many [1, 2])]] k)))
          ((List.flatMap names [construct [("a", .many [0, 1]), ("b", .int 1)],
            construct [("a", .many [1, 2])]])).eraseDups)) = some [1] := by decide
        rw [e] at h; cases h; rfl
      subst this
      simpa using hw
    · rintro rfl
      exact ⟨[1], by decide, by simp⟩

/-- `IndexSet(x=[0, 0, 1], y=set(), z=2)` has no entry `y`. -/
example : ¬ Key (construct [("x", .many [0, 0, 1]), ("y", .many []), ("z", .int 2)]) "y" ∧
    Has (construct [("x", .many [0, 0, 1]), ("y", .many []), ("z", .int 2)]) "z" 2 := by
  refine ⟨?_, [2], by decide, by simp⟩
  rintro ⟨ws, h⟩
  have e : List.lookup "y" (construct [("x", .many [0, 0, 1]), ("y", .many []), ("z", .int 2)]) = none := by
    decide
  rw [e] at h
  cases h

/-! ## Where it fails -/

/-- The union of no index sets is not the unit `{}`: `union()` raises TypeError. -/
theorem C34_no_arguments_fails : union [] = none := rfl

/-- An index set is a mutable dict; with an empty entry put in later `union(a, a)` is not equal to `a`. -/
theorem C34_empty_entry_fails : ∃ a u, union [a, a] = some u ∧ ¬ Same u a := by
  refine ⟨[("x", [])], _, rfl, ?_⟩
  rintro ⟨h, _⟩
  obtain ⟨ws, hws⟩ := (h "x").2 ⟨[], rfl⟩
  have e : List.lookup "x" (construct (List.map (fun k => (k, Arg.many (unionAt
      [[("x", [])], [("x", [])]] k))) ((List.flatMap names [[("x", [])], [("x", [])]])).eraseDups)) = none := by
    decide
  rw [e] at hws
  cases hws

end Verif.Indexed
