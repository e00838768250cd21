import Verif.Indexed.Named

/-!
# C38: named batch dimensions of distributions

Model of `handlers/pyro.py` `Naming` 55-82 (`from_shape` and `apply`), on the tensors of `Named`.
-/

namespace Verif.Indexed.Named

variable {α : Type}

/-- Insertion into a dict. -/
def dictSet : List (Name × Int) → Name → Int → List (Name × Int)
  | [], n, d => [(n, d)]
  | (m, e) :: r, n, d => if m = n then (m, d) :: r else (m, e) :: dictSet r n d

/-- `Naming.from_shape(names, event_dims)` (64-76). -/
def fromShape (names : List Name) (event : Nat) : List (Name × Int) :=
  names.zipIdx.foldl (fun acc p => dictSet acc p.1 (-(event : Int) - names.length + p.2)) []

/-- `l[i] = x` for a Python list; `none` for IndexError. -/
def pySet {β : Type} (l : List β) (i : Int) (x : β) : Option (List β) :=
  if i < 0 then (if l.length + i < 0 then none else some (l.set (l.length + i).toNat x))
  else if i < l.length then some (l.set i.toNat x) else none

/-- The loop of `Naming.apply` (80-81). -/
def setNames (rank : Nat) : List (Name × Int) → List (Option Name) → Option (List (Option Name))
  | [], l => some l
  | (n, d) :: r, l =>
    match pySet l (rank + d) (some n) with
    | none => none
    | some l => setNames rank r l

/-- `Naming.apply(value)` (78-82). -/
def applyNaming (naming : List (Name × Int)) (v : Val α) : Except Err (Val α) :=
  match setNames v.shape.length naming (List.replicate v.shape.length none) with
  | none => .error .index
  | some key => getitem v key

/-! ## `from_shape` -/

theorem dictSet_fresh : ∀ (r : List (Name × Int)) (n : Name) (d : Int), n ∉ r.map Prod.fst →
    dictSet r n d = r ++ [(n, d)] := by
  intro r
  induction r with
  | nil => intro _ _ _; rfl
  | cons p r ih =>
    intro n d h
    obtain ⟨m, e⟩ := p
    simp only [List.map_cons, List.mem_cons, not_or] at h
    simp only [dictSet]
    rw [if_neg (fun e => h.1 e.symm), ih n d h.2]
    rfl

theorem fold_fresh (f : Nat → Int) : ∀ (names : List Name) (k : Nat) (acc : List (Name × Int)), names.Nodup →
    (∀ n ∈ names, n ∉ acc.map Prod.fst) →
    (names.zipIdx k).foldl (fun acc p => dictSet acc p.1 (f p.2)) acc =
      acc ++ (names.zipIdx k).map (fun p => (p.1, f p.2)) := by
  intro names
  induction names with
  | nil => intro k acc _ _; simp
  | cons n names ih =>
    intro k acc hn hf
    simp only [List.nodup_cons] at hn
    simp only [List.zipIdx_cons, List.foldl_cons, List.map_cons]
    rw [dictSet_fresh _ _ _ (hf n (by simp)), ih (k + 1) _ hn.2]
    · simp
    · intro m hm h
      simp only [List.map_append, List.map_cons, List.map_nil, List.mem_append, List.mem_singleton] at h
      rcases h with h | h
      · exact hf m (List.mem_cons_of_mem _ hm) h
      · subst h; exact hn.1 hm

/-- For distinct names, `from_shape` gives the names in order, and the `k`-th of `n` names the dimension
`event + (n - k)` from the right. -/
theorem C38_from_shape_partial (names : List Name) (event : Nat) (hn : names.Nodup) :
    (fromShape names event).map Prod.fst = names ∧
    (∀ (k : Nat) n d, (fromShape names event)[k]? = some (n, d) → d = -((event + (names.length - k) : Nat) : Int)) ∧
    (∀ (k : Nat) n d, (fromShape names event)[k]? = some (n, d) → d < -(event : Int)) := by
  have h := fold_fresh (fun i => -(event : Int) - names.length + i) names 0 [] hn (by simp)
  simp only [List.nil_append] at h
  have h' : fromShape names event =
      (names.zipIdx 0).map (fun p => (p.1, -(event : Int) - names.length + (p.2 : Int))) := h
  have hget : ∀ (k : Nat) n d, (fromShape names event)[k]? = some (n, d) →
      k < names.length ∧ d = -(event : Int) - names.length + k := by
    intro k n d hk
    rw [h', List.getElem?_map, List.getElem?_zipIdx] at hk
    cases hk' : names[k]? with
    | none => rw [hk'] at hk; simp at hk
    | some m =>
      rw [hk'] at hk
      simp only [Option.map_some, Nat.zero_add, Option.some.injEq, Prod.mk.injEq] at hk
      exact ⟨(List.getElem?_eq_some_iff.1 hk').1, hk.2.symm⟩
  refine ⟨?_, ?_, ?_⟩
  · rw [h', List.map_map]
    apply List.ext_getElem
    · simp
    · intro i h1 h2; simp
  · intro k n d hk
    obtain ⟨h1, h2⟩ := hget k n d hk
    rw [h2]
    omega
  · intro k n d hk
    obtain ⟨h1, h2⟩ := hget k n d hk
    rw [h2]
    omega

/-! ## `apply` -/

theorem setNames_block (p event total : Nat) : ∀ (rest done : List Name) , total = done.length + rest.length →
    setNames (p + total + event)
      ((rest.zipIdx done.length).map (fun q => (q.1, -(event : Int) - (total : Int) + (q.2 : Int))))
      (List.replicate p none ++ done.map some ++ List.replicate rest.length none ++ List.replicate event none) =
    some (List.replicate p none ++ (done ++ rest).map some ++ List.replicate event none) := by
  intro rest
  induction rest with
  | nil => intro done _; simp [setNames]
  | cons n rest ih =>
    intro done ht
    simp only [List.zipIdx_cons, List.map_cons, setNames]
    have hi : (((p + total + event : Nat) : Int) + (-(event : Int) - (total : Int) + (done.length : Int))) =
        ((p + done.length : Nat) : Int) := by omega
    rw [hi]
    have hset : pySet (List.replicate p none ++ done.map some ++ List.replicate (n :: rest).length none ++
        List.replicate event none) ((p + done.length : Nat) : Int) (some n) =
        some (List.replicate p none ++ (done ++ [n]).map some ++ List.replicate rest.length none ++
          List.replicate event none) := by
      unfold pySet
      rw [if_neg (by omega), if_pos (by
        simp only [List.length_append, List.length_replicate, List.length_map, List.length_cons] at ht ⊢; omega)]
      simp only [Int.toNat_natCast, List.length_cons, List.replicate_succ]
      have hl : (List.replicate p (none : Option Name) ++ done.map some).length = p + done.length := by simp
      rw [List.append_assoc, List.set_append_right _ _ (Nat.le_of_eq hl), hl]
      simp [List.append_assoc]
    rw [hset]
    simp only
    have := ih (done ++ [n]) (by simp at ht ⊢; omega)
    simpa [List.append_assoc] using this

/-- `from_shape(names, event).apply(v)` for distinct names not used by `v`, and at least as many dimensions as
needed: the dimensions left of the event dimensions get the names, and the others stay. -/
theorem C38_apply_partial {v : Val α} (hv : v.Wf) (names : List Name) (hn : names.Nodup)
    (hfresh : ∀ n ∈ names, ∀ d, ¬ Occurs v n d) (batch mid ev : List Nat) (hshape : v.shape = batch ++ mid ++ ev)
    (hmid : mid.length = names.length) :
    ∃ w, applyNaming (fromShape names ev.length) v = .ok w ∧ w.Wf ∧ w.shape = batch ++ ev ∧
      (∀ n d, Occurs w n d ↔ Occurs v n d ∨ (d, n) ∈ mid.zip names) ∧
      ∀ env b e, b.length = batch.length → e.length = ev.length →
        den w env (b ++ e) = den v env (b ++ names.map env ++ e) := by
  have h := fold_fresh (fun i => -(ev.length : Int) - names.length + i) names 0 [] hn (by simp)
  simp only [List.nil_append] at h
  have h' : fromShape names ev.length =
      (names.zipIdx 0).map (fun p => (p.1, -(ev.length : Int) - names.length + (p.2 : Int))) := h
  have hlen : v.shape.length = batch.length + names.length + ev.length := by
    rw [hshape]; simp [hmid, Nat.add_assoc]
  have hb := setNames_block batch.length ev.length names.length names [] (by simp)
  simp only [List.length_nil, List.map_nil, List.append_nil, List.nil_append] at hb
  unfold applyNaming
  rw [h', hlen]
  have hrep : List.replicate (batch.length + names.length + ev.length) (none : Option Name) =
      List.replicate batch.length none ++ List.replicate names.length none ++ List.replicate ev.length none := by
    simp [List.replicate_append_replicate]
  rw [hrep, hb]
  simp only
  have hz : ∀ n d, (d, some n) ∈ v.shape.zip (List.replicate batch.length none ++ names.map some ++
      List.replicate ev.length none) ↔ (d, n) ∈ mid.zip names := by
    intro n d
    rw [hshape, List.zip_append (by simp [hmid]), List.zip_append (by simp)]
    rw [List.mem_append, List.mem_append]
    have hno : ∀ l : List Nat, (d, some n) ∉ l.zip (List.replicate l.length none) := by
      intro l h
      have := (List.of_mem_zip h).2
      rw [List.mem_replicate] at this
      cases this.2
    have hm : (d, some n) ∈ mid.zip (names.map some) ↔ (d, n) ∈ mid.zip names := by
      rw [List.zip_map_right, List.mem_map]
      constructor
      · rintro ⟨⟨a, b⟩, h1, h2⟩
        simp only [Prod.map_apply, id_eq, Prod.mk.injEq, Option.some.injEq] at h2
        obtain ⟨rfl, rfl⟩ := h2
        exact h1
      · intro h
        exact ⟨(d, n), h, rfl⟩
    constructor
    · rintro ((h | h) | h)
      · exact absurd h (hno _)
      · exact hm.1 h
      · exact absurd h (hno _)
    · intro h
      exact Or.inl (Or.inr (hm.2 h))
  have huniq : ∀ (l : List Nat) (names : List Name), names.Nodup → ∀ n d e, (d, n) ∈ l.zip names →
      (e, n) ∈ l.zip names → d = e := by
    intro l
    induction l with
    | nil => intro names _ n d e h; simp at h
    | cons x l ih =>
      intro names hn n d e hd he
      cases names with
      | nil => simp at hd
      | cons m names =>
        simp only [List.nodup_cons] at hn
        simp only [List.zip_cons_cons, List.mem_cons, Prod.mk.injEq] at hd he
        rcases hd with ⟨rfl, rfl⟩ | hd
        · rcases he with ⟨rfl, _⟩ | he
          · rfl
          · exact absurd (List.of_mem_zip he).2 hn.1
        · rcases he with ⟨rfl, rfl⟩ | he
          · exact absurd (List.of_mem_zip hd).2 hn.1
          · exact ih names hn.2 n d e hd he
  obtain ⟨w, g1, g2, g3, g4, g5⟩ := getitem_ok hv (List.replicate batch.length none ++ names.map some ++
      List.replicate ev.length none) (by rw [hlen]; simp [Nat.add_assoc])
    (by
      intro n d e hd he
      rw [hz] at hd he
      rcases hd with hd | hd
      · rcases he with he | he
        · exact hv.sizes n d e hd he
        · exact absurd hd (hfresh n (List.of_mem_zip he).2 d)
      · rcases he with he | he
        · exact absurd he (hfresh n (List.of_mem_zip hd).2 e)
        · exact huniq _ _ hn n d e hd he)
  have hpad : pad v.shape.length (List.replicate batch.length none ++ names.map some ++
      List.replicate ev.length none) = List.replicate batch.length none ++ (names.map some ++
      List.replicate ev.length none) := by
    unfold pad
    rw [hlen]
    simp [Nat.add_assoc]
  rw [hpad] at g3 g5
  refine ⟨w, g1, g2, ?_, fun n d => by rw [g4, hz], ?_⟩
  · rw [g3, hshape, List.append_assoc, visible_none, visible_names _ _ _ hmid.symm, visible_all]
  · intro env b e h1 h2
    rw [g5, coords_none env _ _ _ _ h1, coords_names]
    have := coords_none env ev.length [] e [] h2
    simp only [List.append_nil, coords] at this
    rw [this, List.append_assoc]

/-- `from_shape([a, b], 1).apply(x)` for `x` of shape `(2, 3, 4, 5)`. -/
example : fromShape ["a", "b"] 1 = [("a", -3), ("b", -2)] := by decide

example : ((applyNaming (fromShape ["a", "b"] 1) (plain ⟨[2, 3, 4, 5], id⟩)).toOption.map
    (fun w => (w.shape, den w (fun n => if n = "a" then 7 else 8) [1, 4]))) = some ([2, 5], [1, 7, 8, 4]) := by decide

theorem pySet_none {β : Type} (l : List β) (i : Int) (x : β) :
    (pySet l i x = none ↔ i < -(l.length : Int) ∨ (l.length : Int) ≤ i) ∧
    ∀ m, pySet l i x = some m → m.length = l.length := by
  unfold pySet
  split
  · split
    · exact ⟨⟨fun _ => .inl (by omega), fun _ => rfl⟩, fun m h => by cases h⟩
    · refine ⟨⟨(fun h => by cases h), (fun h => by omega)⟩, fun m h => ?_⟩
      cases h
      simp
  · split
    · refine ⟨⟨(fun h => by cases h), (fun h => by omega)⟩, fun m h => ?_⟩
      cases h
      simp
    · exact ⟨⟨fun _ => .inr (by omega), fun _ => rfl⟩, fun m h => by cases h⟩

theorem setNames_none (rank : Nat) : ∀ (l : List (Name × Int)) (key : List (Option Name)), key.length = rank →
    (setNames rank l key = none ↔ ∃ p ∈ l, (rank : Int) + p.2 < -(rank : Int) ∨ (rank : Int) ≤ rank + p.2) ∧
    ∀ m, setNames rank l key = some m → m.length = rank := by
  intro l
  induction l with
  | nil =>
    intro key hk
    refine ⟨by simp [setNames], fun m h => ?_⟩
    simp only [setNames, Option.some.injEq] at h
    rw [← h, hk]
  | cons p l ih =>
    intro key hk
    obtain ⟨n, d⟩ := p
    simp only [setNames]
    obtain ⟨h1, h2⟩ := pySet_none key ((rank : Int) + d) (some n)
    rw [hk] at h1 h2
    cases hp : pySet key ((rank : Int) + d) (some n) with
    | none =>
      refine ⟨⟨fun _ => ⟨(n, d), List.mem_cons_self, h1.1 hp⟩, fun _ => rfl⟩, fun m h => by cases h⟩
    | some k =>
      obtain ⟨h3, h4⟩ := ih k (h2 k hp)
      refine ⟨?_, h4⟩
      simp only
      rw [h3]
      constructor
      · rintro ⟨p, hp, h⟩
        exact ⟨p, List.mem_cons_of_mem _ hp, h⟩
      · rintro ⟨p, hm, h⟩
        rcases List.mem_cons.1 hm with rfl | hm
        · rw [h1.2 h] at hp
          cases hp
        · exact ⟨p, hm, h⟩

/-- There is an IndexError exactly if the leftmost position is further to the left than twice the number of dimensions. -/
theorem C38_raises (v : Val α) (names : List Name) (hn : names.Nodup) (event : Nat) :
    applyNaming (fromShape names event) v = .error .index ↔ names ≠ [] ∧ 2 * v.shape.length < event + names.length := by
  have h := fold_fresh (fun i => -(event : Int) - names.length + i) names 0 [] hn (by simp)
  simp only [List.nil_append] at h
  have h' : fromShape names event =
      (names.zipIdx 0).map (fun p => (p.1, -(event : Int) - names.length + (p.2 : Int))) := h
  obtain ⟨h1, h2⟩ := setNames_none v.shape.length (fromShape names event) (List.replicate v.shape.length none) (by simp)
  have key : (∃ p ∈ fromShape names event, (v.shape.length : Int) + p.2 < -(v.shape.length : Int) ∨
      (v.shape.length : Int) ≤ v.shape.length + p.2) ↔ names ≠ [] ∧ 2 * v.shape.length < event + names.length := by
    rw [h']
    constructor
    · rintro ⟨p, hp, hh⟩
      obtain ⟨⟨n, i⟩, hm, rfl⟩ := List.mem_map.1 hp
      have hi := List.mem_zipIdx hm
      simp only at hh hi
      exact ⟨fun e => (by simp [e] at hm), by omega⟩
    · rintro ⟨hne, hh⟩
      obtain ⟨n, names, rfl⟩ := List.exists_cons_of_ne_nil hne
      refine ⟨_, List.mem_map.2 ⟨(n, 0), by simp [List.zipIdx_cons], rfl⟩, .inl ?_⟩
      simp only [List.length_cons] at hh ⊢
      omega
  rw [← key, ← h1]
  unfold applyNaming
  cases hs : setNames v.shape.length (fromShape names event) (List.replicate v.shape.length none) with
  | none => simp
  | some k =>
    have hl := h2 k hs
    simp only
    constructor
    · intro hg
      exfalso
      unfold getitem at hg
      rw [if_neg (by omega)] at hg
      simp only at hg
      split at hg
      · cases hg
      · split at hg
        · cases hg
        · split at hg
          · cases hg
          · split at hg <;> cases hg
    · intro h; cases h

example : ["a", "b"].Nodup ∧ 2 * (plain ⟨[2], id⟩ : Val (List Nat)).shape.length < 1 + ["a", "b"].length := by decide

/-- A name given twice names only one dimension. -/
theorem C38_duplicates_fails : fromShape ["a", "a"] 0 = [("a", -1)] := by decide

/-- With too few dimensions, event dimensions get names: naming two dimensions left of two event dimensions of a
tensor of shape `(2, 3, 4)` does not raise, but names the last dimension. -/
theorem C38_rank_fails : (applyNaming (fromShape ["a", "b"] 2) (plain ⟨[2, 3, 4], id⟩ : Val (List Nat))).toOption.map
    (fun w => (w.shape, w.sizes)) = some ([3], some [("b", 2), ("a", 4)]) := by decide

end Verif.Indexed.Named
