/-!
# C91: the semi-ring dictionaries of `docs/source/semi_ring.py`

Model of `SemiRingDict.__add__` (`semi_ring.py` 34-41), `eager_add` (118-130), `eager_dict` (94-98), `eager_sum` (143-161),
`eager_let` (164-165) and of the pattern of `vertical_fusion` (168-187). Values are integers and dictionaries of values with
integer keys. Exceptions are `none`.
-/

namespace Verif.Examples.SemiRing

mutual
/-- Integers and `SemiRingDict`. -/
inductive Val where
  | num (n : Int)
  | dict (d : Ents)
/-- The entries of a dictionary in their order. -/
inductive Ents where
  | nil
  | cons (k : Int) (v : Val) (d : Ents)
end

/-- `d.get(k)`. -/
def Ents.get (k : Int) : Ents → Option Val
  | .nil => none
  | .cons j v d => if j = k then some v else d.get k

/-- `d[k] = v`: in place, or at the end. -/
def Ents.put (k : Int) (v : Val) : Ents → Ents
  | .nil => .cons k v .nil
  | .cons j w d => if j = k then .cons j v d else .cons j w (d.put k v)

mutual
/-- `x + y`: `int.__add__` and `SemiRingDict.__add__`; others raise. -/
def addV (x : Val) (y : Val) : Option Val :=
  match y with
  | .num b => match x with
    | .num a => some (.num (a + b))
    | .dict _ => none
  | .dict e => match x with
    | .num _ => none
    | .dict d => (addD d e).map .dict
termination_by structural y
/-- The loop of `__add__` (36-40) and `eager_add` (121-125). -/
def addD (d : Ents) (e : Ents) : Option Ents :=
  match e with
  | .nil => some d
  | .cons k v e =>
    match d.get k with
    | some u => (addV u v).bind fun w => addD (d.put k w) e
    | none => addD (d.put k v) e
termination_by structural e
end

/-- The loop of `eager_sum` (152-154), where `body` is the value of `e2` for a key and a value; if that is no dictionary, `items`
raises. -/
def sumD (body : Int → Val → Option Val) : Ents → Ents → Option Ents
  | acc, .nil => some acc
  | acc, .cons k v d =>
    match body k v with
    | some (.dict e) => (addD acc e).bind fun acc => sumD body acc d
    | _ => none

/-- `Sum(d, k, v, e2)` under `eager`. -/
def sum (body : Int → Val → Option Val) (d : Ents) : Option Ents := sumD body .nil d

/-- `dict(list(contents))` (96). -/
def ofList : List (Int × Val) → Ents → Ents
  | [], d => d
  | (k, v) :: l, d => ofList l (d.put k v)

/-! ## Specification -/

/-- Types of values. -/
inductive Ty where
  | num
  | dict (t : Ty)

/-- The keys. -/
def Ents.keys : Ents → List Int
  | .nil => []
  | .cons k _ d => k :: d.keys

/-- Values of a type, with dictionaries that have no key twice. -/
def Has : Ty → Val → Prop
  | .num, .num _ => True
  | .dict t, .dict d => d.keys.Nodup ∧ ∀ k v, d.get k = some v → Has t v
  | _, _ => False

/-- Equality of values without regard to the order of entries. -/
def Same : Ty → Val → Val → Prop
  | .num, .num a, .num b => a = b
  | .dict t, .dict d, .dict e => ∀ k, match d.get k, e.get k with
    | none, none => True
    | some v, some w => Same t v w
    | _, _ => False
  | _, _, _ => False

/-- The value at a key of a sum of dictionaries. -/
def both (x y : Option Val) : Option Val :=
  match x, y with
  | none, y => y
  | x, none => x
  | some a, some b => addV a b

/-! ## Dictionaries -/

theorem get_put (k j : Int) (v : Val) (d : Ents) : (d.put k v).get j = if j = k then some v else d.get j := by
  match d with
  | .nil =>
    simp only [Ents.put, Ents.get]
    by_cases h : j = k
    · simp [h]
    · simp [h, Ne.symm h]
  | .cons i w d =>
    have ih := get_put k j v d
    by_cases h : i = k
    · subst h
      by_cases h2 : j = i
      · simp [Ents.put, Ents.get, h2]
      · simp [Ents.put, Ents.get, h2, Ne.symm h2]
    · simp only [Ents.put, if_neg h, Ents.get, ih]
      by_cases h2 : i = j
      · subst h2; simp [h]
      · simp [h2]

theorem get_none (k : Int) (d : Ents) : d.get k = none ↔ k ∉ d.keys := by
  match d with
  | .nil => simp [Ents.get, Ents.keys]
  | .cons j v d =>
    have ih := get_none k d
    by_cases h : j = k
    · simp [Ents.get, Ents.keys, h]
    · simp [Ents.get, Ents.keys, h, Ne.symm h, ih]

theorem keys_put (k : Int) (v : Val) (d : Ents) : (d.put k v).keys = if k ∈ d.keys then d.keys else d.keys ++ [k] := by
  match d with
  | .nil => simp [Ents.put, Ents.keys]
  | .cons j w d =>
    have ih := keys_put k v d
    by_cases h : j = k
    · simp [Ents.put, Ents.keys, h]
    · simp only [Ents.put, if_neg h, Ents.keys, ih, List.mem_cons, Ne.symm h, false_or]
      split <;> simp

theorem nodup_put (k : Int) (v : Val) {d : Ents} (h : d.keys.Nodup) : (d.put k v).keys.Nodup := by
  rw [keys_put]
  split
  · exact h
  · rename_i hk
    rw [List.nodup_append]
    exact ⟨h, by simp, by simp only [List.mem_singleton]; rintro a ha b rfl rfl; exact hk ha⟩

/-! ## Addition -/

/-- The loop of an addition, if the additions of values succeed. -/
theorem addD_spec (t : Ty) (hadd : ∀ a b, Has t a → Has t b → ∃ c, addV a b = some c ∧ Has t c) : ∀ (e d : Ents),
    Has (.dict t) (.dict d) → Has (.dict t) (.dict e) →
    ∃ r, addD d e = some r ∧ Has (.dict t) (.dict r) ∧ (∀ k, r.get k = both (d.get k) (e.get k)) ∧
      r.keys = d.keys ++ e.keys.filter (· ∉ d.keys)
  | .nil, d, hd, _ => ⟨d, by simp [addD], hd, fun k => by cases h : d.get k <;> simp [both, Ents.get], by simp [Ents.keys]⟩
  | .cons j v e, d, hd, he => by
    have hj : j ∉ e.keys := (List.nodup_cons.1 he.1).1
    have he' : Has (.dict t) (.dict e) := by
      refine ⟨(List.nodup_cons.1 he.1).2, fun k w h => he.2 k w ?_⟩
      have : j ≠ k := by
        rintro rfl
        rw [(get_none j e).2 hj] at h
        cases h
      simp [Ents.get, this, h]
    have hv : Has t v := he.2 j v (by simp [Ents.get])
    have hput : ∀ w, Has t w → Has (.dict t) (.dict (d.put j w)) := by
      refine fun w hw => ⟨nodup_put j w hd.1, fun k x h => ?_⟩
      rw [get_put] at h
      split at h
      · cases h; exact hw
      · exact hd.2 k x h
    have hget : ∀ {r : Ents} {w : Val}, (∀ k, r.get k = both ((d.put j w).get k) (e.get k)) →
        both (d.get j) (some v) = some w → ∀ k, r.get k = both (d.get k) ((Ents.cons j v e).get k) := by
      intro r w hr hw k
      rw [hr k, get_put]
      by_cases hk : k = j
      · subst hk
        simp only [Ents.get, (get_none k e).2 hj, if_true]
        exact hw.symm
      · simp [Ents.get, hk, Ne.symm hk]
    cases hdj : d.get j with
    | none =>
      have hnk := (get_none j d).1 hdj
      obtain ⟨r, h1, h2, h3, h4⟩ := addD_spec t hadd e (d.put j v) (hput v hv) he'
      refine ⟨r, by simp [addD, hdj, h1], h2, hget h3 (by simp [hdj, both]), ?_⟩
      rw [h4, keys_put, if_neg hnk]
      simp only [Ents.keys, List.filter_cons, hnk, not_false_eq_true, decide_true, if_true, List.append_assoc,
        List.singleton_append]
      congr 2
      apply List.filter_congr
      intro x hx
      have : x ≠ j := by rintro rfl; exact hj hx
      simp [this]
    | some u =>
      have hk : j ∈ d.keys := by
        apply Classical.byContradiction
        intro h
        rw [(get_none j d).2 h] at hdj
        cases hdj
      obtain ⟨w, hw, hw'⟩ := hadd u v (hd.2 j u hdj) hv
      obtain ⟨r, h1, h2, h3, h4⟩ := addD_spec t hadd e (d.put j w) (hput w hw') he'
      refine ⟨r, by simp [addD, hdj, hw, h1], h2, hget h3 (by simp [hdj, both, hw]), ?_⟩
      rw [h4, keys_put, if_pos hk]
      simp [Ents.keys, hk]

theorem addV_total (t : Ty) : ∀ a b, Has t a → Has t b → ∃ c, addV a b = some c ∧ Has t c := by
  induction t with
  | num =>
    intro a b ha hb
    cases a with
    | dict _ => exact ha.elim
    | num x =>
      cases b with
      | dict _ => exact hb.elim
      | num y => exact ⟨.num (x + y), by simp [addV], trivial⟩
  | dict t ih =>
    intro a b ha hb
    cases a with
    | num _ => exact ha.elim
    | dict d =>
      cases b with
      | num _ => exact hb.elim
      | dict e =>
        obtain ⟨r, h1, h2, _⟩ := addD_spec t ih e d ha hb
        exact ⟨.dict r, by simp [addV, h1], h2⟩

/-- **C91.** The sum of two dictionaries of the same type: at each key the sum of the values, or the value of the one that has the
key; the keys are those of the first, then the other keys of the second. -/
theorem C91_add (t : Ty) (d e : Ents) (hd : Has (.dict t) (.dict d)) (he : Has (.dict t) (.dict e)) :
    ∃ r, addV (.dict d) (.dict e) = some (.dict r) ∧ Has (.dict t) (.dict r) ∧ (∀ k, r.get k = both (d.get k) (e.get k)) ∧
      r.keys = d.keys ++ e.keys.filter (· ∉ d.keys) := by
  obtain ⟨r, h1, h2⟩ := addD_spec t (addV_total t) e d hd he
  exact ⟨r, by simp [addV, h1], h2⟩

theorem same_refl : ∀ (t : Ty) {a : Val}, Has t a → Same t a a
  | .num, .num _, _ => rfl
  | .num, .dict _, h => h.elim
  | .dict _, .num _, h => h.elim
  | .dict t, .dict d, h => by
    intro k
    cases hk : d.get k with
    | none => trivial
    | some v => exact same_refl t (h.2 k v hk)

/-- **C91.** Addition commutes, up to the order of entries. -/
theorem C91_comm (t : Ty) : ∀ a b, Has t a → Has t b → ∃ c d, addV a b = some c ∧ addV b a = some d ∧ Same t c d := by
  induction t with
  | num =>
    intro a b ha hb
    cases a with
    | dict _ => exact ha.elim
    | num x =>
      cases b with
      | dict _ => exact hb.elim
      | num y => exact ⟨.num (x + y), .num (y + x), by simp [addV], by simp [addV], Int.add_comm x y⟩
  | dict t ih =>
    intro a b ha hb
    cases a with
    | num _ => exact ha.elim
    | dict d =>
      cases b with
      | num _ => exact hb.elim
      | dict e =>
        obtain ⟨r, h1, _, h3, _⟩ := C91_add t d e ha hb
        obtain ⟨s, g1, _, g3, _⟩ := C91_add t e d hb ha
        refine ⟨.dict r, .dict s, h1, g1, fun k => ?_⟩
        rw [h3 k, g3 k]
        cases hx : d.get k with
        | none =>
          cases hy : e.get k with
          | none => trivial
          | some y => exact same_refl t (hb.2 k y hy)
        | some x =>
          cases hy : e.get k with
          | none => exact same_refl t (ha.2 k x hx)
          | some y =>
            obtain ⟨c, c', i1, i2, i3⟩ := ih x y (ha.2 k x hx) (hb.2 k y hy)
            simp only [both, i1, i2]
            exact i3

/-- **C91.** Addition is associative, up to the order of entries. -/
theorem C91_assoc (t : Ty) : ∀ a b c, Has t a → Has t b → Has t c → ∃ x y, ((addV a b).bind fun s => addV s c) = some x ∧
    ((addV b c).bind fun s => addV a s) = some y ∧ Same t x y := by
  induction t with
  | num =>
    intro a b c ha hb hc
    cases a with
    | dict _ => exact ha.elim
    | num x =>
      cases b with
      | dict _ => exact hb.elim
      | num y =>
        cases c with
        | dict _ => exact hc.elim
        | num z => exact ⟨.num (x + y + z), .num (x + (y + z)), by simp [addV], by simp [addV], Int.add_assoc x y z⟩
  | dict t ih =>
    intro a b c ha hb hc
    cases a with
    | num _ => exact ha.elim
    | dict d =>
      cases b with
      | num _ => exact hb.elim
      | dict e =>
        cases c with
        | num _ => exact hc.elim
        | dict f =>
          obtain ⟨r, h1, h2, h3, _⟩ := C91_add t d e ha hb
          obtain ⟨s, g1, g2, g3, _⟩ := C91_add t e f hb hc
          obtain ⟨r', h1', h2', h3', _⟩ := C91_add t r f h2 hc
          obtain ⟨s', g1', g2', g3', _⟩ := C91_add t d s ha g2
          refine ⟨.dict r', .dict s', by simp [h1, h1'], by simp [g1, g1'], fun k => ?_⟩
          have hr := fun v => h2'.2 k v
          rw [h3' k, h3 k] at hr
          rw [h3' k, g3' k, h3 k, g3 k]
          cases hx : d.get k with
          | none =>
            rw [hx] at hr
            cases hy : e.get k with
            | none =>
              cases hz : f.get k with
              | none => trivial
              | some z => exact same_refl t (hc.2 k z hz)
            | some y =>
              cases hz : f.get k with
              | none => exact same_refl t (hb.2 k y hy)
              | some z =>
                obtain ⟨w, hw, hw'⟩ := addV_total t y z (hb.2 k y hy) (hc.2 k z hz)
                simp only [both, hw]
                exact same_refl t hw'
          | some x =>
            cases hy : e.get k with
            | none =>
              cases hz : f.get k with
              | none => exact same_refl t (ha.2 k x hx)
              | some z =>
                obtain ⟨w, hw, hw'⟩ := addV_total t x z (ha.2 k x hx) (hc.2 k z hz)
                simp only [both, hw]
                exact same_refl t hw'
            | some y =>
              obtain ⟨w, hw, hw'⟩ := addV_total t x y (ha.2 k x hx) (hb.2 k y hy)
              cases hz : f.get k with
              | none =>
                simp only [both, hw]
                exact same_refl t hw'
              | some z =>
                obtain ⟨p, q, i1, i2, i3⟩ := ih x y z (ha.2 k x hx) (hb.2 k y hy) (hc.2 k z hz)
                obtain ⟨u, hu, _⟩ := addV_total t y z (hb.2 k y hy) (hc.2 k z hz)
                simp only [hw, hu, Option.bind_some] at i1 i2
                simp only [both, hw, hu, i1, i2]
                exact i3

/-- **C91, fails.** Integers and dictionaries cannot be added: the empty dictionary is no zero for integers. -/
theorem C91_zero_fails (n : Int) (d : Ents) : addV (.num n) (.dict d) = none ∧ addV (.dict d) (.num n) = none := by
  simp [addV]

/-- **C91, fails.** Zeros are kept: a sum of opposite dictionaries is not the empty one. -/
theorem C91_cancel_fails (k n : Int) : addV (.dict (.cons k (.num n) .nil)) (.dict (.cons k (.num (-n)) .nil)) =
    some (.dict (.cons k (.num 0) .nil)) := by
  simp [addV, addD, Ents.get, Ents.put, Int.add_right_neg]

/-- **C91, fails.** `Dict` with a key twice has the last value, not the sum. -/
theorem C91_repeat_fails (k : Int) (v w : Val) : ofList [(k, v), (k, w)] .nil = .cons k w .nil := by
  simp [ofList, Ents.put]

/-! ## Sums -/

/-- The values at a key, added up from left to right. -/
def total (body : Int → Val → Option Val) (j : Int) : Option Val → Ents → Option Val
  | acc, .nil => acc
  | acc, .cons k v d =>
    match body k v with
    | some (.dict e) => total body j (both acc (e.get j)) d
    | _ => none

theorem sumD_spec (t s : Ty) (body : Int → Val → Option Val)
    (hb : ∀ k v, Has s v → ∃ e, body k v = some (.dict e) ∧ Has (.dict t) (.dict e)) : ∀ (d acc : Ents),
    Has (.dict s) (.dict d) → Has (.dict t) (.dict acc) →
    ∃ r, sumD body acc d = some r ∧ Has (.dict t) (.dict r) ∧ ∀ j, r.get j = total body j (acc.get j) d
  | .nil, acc, _, ha => ⟨acc, rfl, ha, fun _ => rfl⟩
  | .cons k v d, acc, hd, ha => by
    have hk : k ∉ d.keys := (List.nodup_cons.1 hd.1).1
    have hd' : Has (.dict s) (.dict d) := by
      refine ⟨(List.nodup_cons.1 hd.1).2, fun j w h => hd.2 j w ?_⟩
      have : k ≠ j := by
        rintro rfl
        rw [(get_none k d).2 hk] at h
        cases h
      simp [Ents.get, this, h]
    obtain ⟨e, he, hte⟩ := hb k v (hd.2 k v (by simp [Ents.get]))
    obtain ⟨a, h1, h2, h3, _⟩ := addD_spec t (addV_total t) e acc ha hte
    obtain ⟨r, g1, g2, g3⟩ := sumD_spec t s body hb d a hd' h2
    refine ⟨r, by simp [sumD, he, h1, g1], g2, fun j => ?_⟩
    rw [g3 j, h3 j]
    simp [total, he]

/-- **C91.** `Sum(d, k, v, e2)` of a dictionary, if `e2` is a dictionary of one type for all keys and values: at each key the sum,
over the entries of `d` in their order, of what `e2` has there. -/
theorem C91_sum (t s : Ty) (body : Int → Val → Option Val)
    (hb : ∀ k v, Has s v → ∃ e, body k v = some (.dict e) ∧ Has (.dict t) (.dict e)) (d : Ents) (hd : Has (.dict s) (.dict d)) :
    ∃ r, sum body d = some r ∧ Has (.dict t) (.dict r) ∧ ∀ j, r.get j = total body j none d :=
  sumD_spec t s body hb d .nil hd ⟨by simp [Ents.keys], by simp [Ents.get]⟩

/-- **C91.** If a sum has a value, `e2` is a dictionary for each entry. -/
theorem C91_sum_only (body : Int → Val → Option Val) (d acc r : Ents) (h : sumD body acc d = some r) (k : Int) (v : Val)
    (hk : d.get k = some v) : ∃ e, body k v = some (.dict e) := by
  match d with
  | .nil => cases hk
  | .cons j w d =>
    simp only [sumD] at h
    split at h
    · rename_i e he
      simp only [Ents.get] at hk
      split at hk
      · rename_i hj
        cases hk
        exact ⟨e, hj ▸ he⟩
      · cases ha : addD acc e with
        | none => simp [ha] at h
        | some a =>
          rw [ha, Option.bind_some] at h
          exact C91_sum_only body d a r h k v hk
    · cases h

/-- The entries with other values. -/
def Ents.map (f : Int → Val → Val) : Ents → Ents
  | .nil => .nil
  | .cons k v d => .cons k (f k v) (d.map f)

/-- Entries after others. -/
def Ents.append : Ents → Ents → Ents
  | .nil, e => e
  | .cons k v d, e => .cons k v (d.append e)

theorem put_new (k : Int) (v : Val) (d : Ents) (h : k ∉ d.keys) : d.put k v = d.append (.cons k v .nil) := by
  match d with
  | .nil => rfl
  | .cons j w d =>
    simp only [Ents.keys, List.mem_cons, not_or] at h
    simp only [Ents.put, if_neg (Ne.symm h.1), Ents.append, put_new k v d h.2]

theorem append_assoc (a b c : Ents) : (a.append b).append c = a.append (b.append c) := by
  match a with
  | .nil => rfl
  | .cons k v a => simp only [Ents.append, append_assoc a b c]

theorem append_nil (a : Ents) : a.append .nil = a := by
  match a with
  | .nil => rfl
  | .cons k v a => simp only [Ents.append, append_nil a]

theorem keys_append (a b : Ents) : (a.append b).keys = a.keys ++ b.keys := by
  match a with
  | .nil => rfl
  | .cons k v a => simp only [Ents.append, Ents.keys, keys_append a b, List.cons_append]

theorem keys_map (f : Int → Val → Val) (d : Ents) : (d.map f).keys = d.keys := by
  match d with
  | .nil => rfl
  | .cons k v d => simp only [Ents.map, Ents.keys, keys_map f d]

theorem sumD_single (f : Int → Val → Val) : ∀ (d acc : Ents), (acc.keys ++ d.keys).Nodup →
    sumD (fun k v => some (.dict (.cons k (f k v) .nil))) acc d = some (acc.append (d.map f))
  | .nil, acc, _ => by
    simp [sumD, Ents.map, append_nil]
  | .cons k v d, acc, h => by
    have hk : k ∉ acc.keys := by
      intro hm
      exact (List.nodup_append.1 h).2.2 k hm k (by simp [Ents.keys]) rfl
    have hget := (get_none k acc).2 hk
    simp only [sumD, addD, hget, put_new k _ acc hk, Option.bind_some]
    rw [sumD_single f d _ (by simpa [keys_append, Ents.keys] using h), append_assoc]
    rfl

/-- **C91.** A sum of dictionaries with the key of each entry: the entries with new values, in their order. -/
theorem C91_sum_map (f : Int → Val → Val) (d : Ents) (hd : d.keys.Nodup) :
    sum (fun k v => some (.dict (.cons k (f k v) .nil))) d = some (d.map f) :=
  sumD_single f d .nil (by simpa [Ents.keys] using hd)

theorem map_map (f g : Int → Val → Val) (d : Ents) : (d.map f).map g = d.map fun k v => g k (f k v) := by
  match d with
  | .nil => rfl
  | .cons k v d => simp only [Ents.map, map_map f g d]

/-- **C91.** Vertical fusion is sound: two such sums, one after the other, are one sum. -/
theorem C91_fusion (f g : Int → Val → Val) (d : Ents) (hd : d.keys.Nodup) :
    ((sum (fun k v => some (.dict (.cons k (f k v) .nil))) d).bind fun e =>
      sum (fun k v => some (.dict (.cons k (g k v) .nil))) e) =
    sum (fun k v => some (.dict (.cons k (g k (f k v)) .nil))) d := by
  rw [C91_sum_map f d hd, Option.bind_some, C91_sum_map g _ (by rw [keys_map]; exact hd), C91_sum_map _ d hd, map_map]

/-! ## Expressions -/

/-- Expressions; `Dict` with one entry. Variables are numbers. -/
inductive Expr where
  | val (v : Val)
  | var (x : Nat)
  | add (a b : Expr)
  | dict1 (k v : Expr)
  | sum (e : Expr) (k v : Nat) (b : Expr)
  | lets (e : Expr) (x : Nat) (b : Expr)

/-- Another binding. -/
def upd {α : Type} (σ : Nat → α) (x : Nat) (a : α) : Nat → α := fun y => if y = x then a else σ y

/-- What an expression means; `none` if it has no value. -/
def den (ρ : Nat → Val) : Expr → Option Val
  | .val v => some v
  | .var x => some (ρ x)
  | .add a b => (den ρ a).bind fun x => (den ρ b).bind fun y => addV x y
  | .dict1 k v =>
    match den ρ k, den ρ v with
    | some (.num n), some v => some (.dict (.cons n v .nil))
    | _, _ => none
  | .sum e k v b =>
    match den ρ e with
    | some (.dict d) => (Verif.Examples.SemiRing.sum (fun n w => den (upd (upd ρ k (.num n)) v w) b) d).map .dict
    | _ => none
  | .lets e x b => (den ρ e).bind fun v => den (upd ρ x v) b

/-- The loop of `eager_sum` (152-154), where `go` evaluates `e2` for a key and a value: `some none` is an exception, `none` that the
bound on calls is exceeded. -/
def loop (go : Int → Val → Option (Option Expr)) : Ents → Ents → Option (Option Expr)
  | acc, .nil => some (some (.val (.dict acc)))
  | acc, .cons k v d =>
    match go k v with
    | none => none
    | some (some (.val (.dict e))) =>
      match addD acc e with
      | some acc => loop go acc d
      | none => some none
    | some _ => some none

/-- `add`, after its arguments are evaluated (118-130, 79-83). -/
def eagerAdd : Expr → Expr → Option Expr
  | .val x, .val y => (addV x y).map .val
  | a, b => some (.add a b)

/-- `Dict`, after its arguments are evaluated (94-98); keys that are dictionaries are left out. -/
def eagerDict : Expr → Expr → Option Expr
  | .val (.num n), .val v => some (.val (.dict (.cons n v .nil)))
  | .val (.dict _), .val _ => none
  | k, v => some (.dict1 k v)

/-- `evaluate` under `eager` and the handlers of variables, which stay in place for what is evaluated within. New names for
bound variables are left out: those of the expression should differ. -/
def eval : Nat → (Nat → Option Expr) → Expr → Option (Option Expr)
  | 0, _, _ => none
  | _ + 1, _, .val v => some (some (.val v))
  | _ + 1, σ, .var x => some (some ((σ x).getD (.var x)))
  | f + 1, σ, .add a b =>
    match eval f σ a with
    | some (some x) =>
      match eval f σ b with
      | some (some y) => some (eagerAdd x y)
      | r => r
    | r => r
  | f + 1, σ, .dict1 a b =>
    match eval f σ a with
    | some (some x) =>
      match eval f σ b with
      | some (some y) => some (eagerDict x y)
      | r => r
    | r => r
  | f + 1, σ, .sum e k v b =>  -- 143-161
    match eval f σ e with
    | some (some e) =>
      match eval f σ b with
      | some (some b) =>
        match e, b with
        | .val (.dict d), .val (.dict c) => loop (fun _ _ => some (some (.val (.dict c)))) .nil d
        | e, .val b => some (some (.sum e k v (.val b)))
        | .val (.dict d), b => loop (fun n w => eval f (upd (upd σ k (some (.val (.num n)))) v (some (.val w))) b) .nil d
        | e, b => some (some (.sum e k v b))
      | r => r
    | r => r
  | f + 1, σ, .lets e x b =>  -- 164-165
    match eval f σ e with
    | some (some e) =>
      match eval f σ b with
      | some (some b) => eval f (upd σ x (some e)) b
      | r => r
    | r => r

/-- Expressions of values, variables, additions and `Dict`. -/
def Simple : Expr → Prop
  | .val _ => True
  | .var _ => True
  | .add a b => Simple a ∧ Simple b
  | .dict1 a b => Simple a ∧ Simple b
  | .sum _ _ _ _ => False
  | .lets _ _ _ => False

/-- Values for the variables that are handled. -/
def over (ρ : Nat → Val) (σ : Nat → Option Val) : Nat → Val := fun x => (σ x).getD (ρ x)

theorem eval_simple : ∀ (f : Nat) (b : Expr) (σ : Nat → Option Val) (r : Expr), Simple b →
    eval f (fun x => (σ x).map .val) b = some (some r) → Simple r ∧ ∀ ρ, den ρ r = den (over ρ σ) b := by
  intro f
  induction f with
  | zero => intro b σ r _ h; simp [eval] at h
  | succ f ih =>
    intro b σ r hs h
    cases b with
    | val v => simp only [eval, Option.some.injEq] at h; subst h; exact ⟨trivial, fun _ => rfl⟩
    | var x =>
      simp only [eval, Option.some.injEq] at h
      subst h
      cases hx : σ x with
      | none => exact ⟨trivial, fun ρ => by simp [den, over, hx]⟩
      | some v => exact ⟨trivial, fun ρ => by simp [den, over, hx]⟩
    | sum _ _ _ _ => exact hs.elim
    | lets _ _ _ => exact hs.elim
    | add a b =>
      simp only [eval] at h
      cases h1 : eval f (fun x => (σ x).map .val) a with
      | none => simp [h1] at h
      | some o =>
        cases o with
        | none => simp [h1] at h
        | some x =>
          cases h2 : eval f (fun x => (σ x).map .val) b with
          | none => simp [h1, h2] at h
          | some o =>
            cases o with
            | none => simp [h1, h2] at h
            | some y =>
              obtain ⟨sx, dx⟩ := ih a σ x hs.1 h1
              obtain ⟨sy, dy⟩ := ih b σ y hs.2 h2
              simp only [h1, h2, Option.some.injEq] at h
              unfold eagerAdd at h
              split at h
              · rename_i u w
                cases ha : addV u w with
                | none => simp [ha] at h
                | some z =>
                  simp only [ha, Option.map_some, Option.some.injEq] at h
                  subst h
                  refine ⟨trivial, fun ρ => ?_⟩
                  have e1 := dx ρ
                  have e2 := dy ρ
                  simp only [den] at e1 e2 ⊢
                  simp [← e1, ← e2, ha]
              · cases h
                exact ⟨⟨sx, sy⟩, fun ρ => by simp only [den, dx ρ, dy ρ]⟩
    | dict1 a b =>
      simp only [eval] at h
      cases h1 : eval f (fun x => (σ x).map .val) a with
      | none => simp [h1] at h
      | some o =>
        cases o with
        | none => simp [h1] at h
        | some x =>
          cases h2 : eval f (fun x => (σ x).map .val) b with
          | none => simp [h1, h2] at h
          | some o =>
            cases o with
            | none => simp [h1, h2] at h
            | some y =>
              obtain ⟨sx, dx⟩ := ih a σ x hs.1 h1
              obtain ⟨sy, dy⟩ := ih b σ y hs.2 h2
              simp only [h1, h2, Option.some.injEq] at h
              unfold eagerDict at h
              split at h
              · cases h
                refine ⟨trivial, fun ρ => ?_⟩
                have e1 := dx ρ
                have e2 := dy ρ
                simp only [den] at e1 e2 ⊢
                simp [← e1, ← e2]
              · cases h
              · cases h
                exact ⟨⟨sx, sy⟩, fun ρ => by simp only [den, dx ρ, dy ρ]⟩

theorem loop_sum {go : Int → Val → Option (Option Expr)} {body : Int → Val → Option Val}
    (hgo : ∀ n w v, go n w = some (some (.val v)) → body n w = some v) : ∀ (d acc : Ents) (r : Val),
    loop go acc d = some (some (.val r)) → (sumD body acc d).map .dict = some r
  | .nil, acc, r, h => by simpa [loop, sumD] using h
  | .cons k v d, acc, r, h => by
    simp only [loop] at h
    split at h
    · cases h
    · rename_i e he
      split at h
      · rename_i a ha
        simp only [sumD, hgo _ _ _ he, ha, Option.bind_some]
        exact loop_sum hgo d a r h
      · cases h
    · cases h

/-- **C91.** Evaluating a `Sum` over a dictionary, with a body of values, variables, additions and `Dict`: if the result is a value,
it is what the expression means, for all values of other variables. -/
theorem C91_eager_sum (f : Nat) (d : Ents) (k v : Nat) (b : Expr) (hb : Simple b) (r : Val)
    (h : eval f (fun _ => none) (.sum (.val (.dict d)) k v b) = some (some (.val r))) (ρ : Nat → Val) :
    den ρ (.sum (.val (.dict d)) k v b) = some r := by
  cases f with
  | zero => simp [eval] at h
  | succ f =>
    cases f with
    | zero => simp [eval] at h
    | succ f =>
      simp only [eval] at h
      cases h2 : eval (f + 1) (fun _ => none) b with
      | none => simp [h2] at h
      | some o =>
        cases o with
        | none => simp [h2] at h
        | some b' =>
          obtain ⟨sb, db⟩ := eval_simple (f + 1) b (fun _ => none) b' hb h2
          have hover : ∀ ρ, over ρ (fun _ => none) = ρ := fun ρ => by funext x; rfl
          simp only [h2] at h
          simp only [den]
          have key : ∀ {go : Int → Val → Option (Option Expr)},
              (∀ n w x, go n w = some (some (.val x)) → den (upd (upd ρ k (.num n)) v w) b' = some x) →
              loop go .nil d = some (some (.val r)) →
              (sum (fun n w => den (upd (upd ρ k (.num n)) v w) b) d).map .dict = some r := by
            intro go hgo hl
            refine loop_sum (go := go) (fun n w x hx => ?_) d .nil r hl
            have := db (upd (upd ρ k (.num n)) v w)
            rw [hover] at this
            rw [← this]
            exact hgo n w x hx
          split at h
          · rename_i d' c he
            cases he
            refine key (go := fun _ _ => some (some (.val (.dict c)))) (fun n w x hx => ?_) h
            simp only [Option.some.injEq, Expr.val.injEq] at hx
            simp [den, hx]
          · cases h
          · rename_i d' he _ _
            cases he
            refine key (fun n w x hx => ?_) h
            have hσ : upd (upd (fun _ => none) k (some (Expr.val (.num n)))) v (some (Expr.val w)) =
                fun y => ((upd (upd (fun _ => none) k (some (.num n))) v (some w)) y : Option Val).map Expr.val := by
              funext y
              simp only [upd]
              split
              · rfl
              · split <;> rfl
            rw [hσ] at hx
            obtain ⟨_, hd⟩ := eval_simple (f + 1) _ _ _ sb hx
            have := hd ρ
            simp only [den] at this
            rw [this]
            congr 1
            funext y
            simp only [upd, over]
            split
            · rfl
            · split <;> rfl
          · cases h

/-- **C91.** Evaluating a `Let` of a value, with such a body: if the result is a value, it is what the expression means. -/
theorem C91_eager_let (f : Nat) (u : Val) (x : Nat) (b : Expr) (hb : Simple b) (r : Val)
    (h : eval f (fun _ => none) (.lets (.val u) x b) = some (some (.val r))) (ρ : Nat → Val) :
    den ρ (.lets (.val u) x b) = some r := by
  cases f with
  | zero => simp [eval] at h
  | succ f =>
    cases f with
    | zero => simp [eval] at h
    | succ f =>
      simp only [eval] at h
      cases h2 : eval (f + 1) (fun _ => none) b with
      | none => simp [h2] at h
      | some o =>
        cases o with
        | none => simp [h2] at h
        | some b' =>
          obtain ⟨sb, db⟩ := eval_simple (f + 1) b (fun _ => none) b' hb h2
          simp only [h2] at h
          have hσ : upd (fun _ => none) x (some (Expr.val u)) =
              fun y => ((upd (fun _ => none) x (some u)) y : Option Val).map Expr.val := by
            funext y
            simp only [upd]
            split <;> rfl
          rw [hσ] at h
          obtain ⟨_, hd⟩ := eval_simple (f + 1) _ _ _ sb h
          have e1 := hd ρ
          have e2 := db (upd ρ x u)
          have e3 : over (upd ρ x u) (fun _ => none) = upd ρ x u := by funext y; rfl
          have e4 : over ρ (upd (fun _ => none) x (some u)) = upd ρ x u := by
            funext y
            simp only [upd, over]
            split <;> rfl
          rw [e4] at e1
          rw [e3] at e2
          simp only [den, Option.bind_some] at e1 ⊢
          rw [← e2, ← e1]

/-- **C91, fails.** Two nested sums over dictionaries, where the inner body has the outer variables: the expression has a value, but
evaluating it raises, as the inner sum meets a term when it is evaluated on its own. -/
theorem C91_nested_fails (f : Nat) (ρ : Nat → Val) :
    den ρ (.sum (.val (.dict (.cons 1 (.num 2) .nil))) 0 1
      (.sum (.val (.dict (.cons 3 (.num 4) .nil))) 2 3 (.dict1 (.var 0) (.var 3)))) =
      some (.dict (.cons 1 (.num 4) .nil)) ∧
    eval (f + 5) (fun _ => none) (.sum (.val (.dict (.cons 1 (.num 2) .nil))) 0 1
      (.sum (.val (.dict (.cons 3 (.num 4) .nil))) 2 3 (.dict1 (.var 0) (.var 3)))) = some none := by
  refine ⟨?_, ?_⟩
  · simp [den, sum, sumD, upd, addD, Ents.get, Ents.put]
  · simp [eval, loop, upd, eagerDict]

/-- **C91, fails.** A sum over a dictionary within `Let`, with the variable of the `Let` in its body: the same. -/
theorem C91_let_fails (f : Nat) (ρ : Nat → Val) :
    den ρ (.lets (.val (.num 5)) 7 (.sum (.val (.dict (.cons 1 (.num 2) .nil))) 0 1 (.dict1 (.var 0) (.var 7)))) =
      some (.dict (.cons 1 (.num 5) .nil)) ∧
    eval (f + 5) (fun _ => none)
      (.lets (.val (.num 5)) 7 (.sum (.val (.dict (.cons 1 (.num 2) .nil))) 0 1 (.dict1 (.var 0) (.var 7)))) = some none := by
  refine ⟨?_, ?_⟩
  · simp [den, sum, sumD, upd, addD, Ents.get, Ents.put]
  · simp [eval, loop, upd, eagerDict]

/-! ## Fusion -/

/-- The arguments of a `Dict` term as `match` sees them: pairs, terms with their operation, and other values. -/
inductive Arg where
  | pair (k v : Expr)
  | term (op : Nat)
  | other (v : Val)

/-- `Term(ops.Dict, (Term(k1a), e_lhs))` with `k1 == k1a` (171-173). -/
def matchesDict (k1 : Nat) : List Arg → Bool
  | [.term k, _] => k == k1
  | _ => false

/-- **C91, fails.** `vertical_fusion` never fuses a `Dict` of entries: its pattern is for a `Dict` of two arguments, of which the first
is a term. -/
theorem C91_pattern_fails (k1 : Nat) (es : List (Expr × Expr)) : matchesDict k1 (es.map fun e => .pair e.1 e.2) = false := by
  match es with
  | [] => rfl
  | [_] => rfl
  | [_, _] => rfl
  | _ :: _ :: _ :: _ => rfl

/-- **C91.** It matches just the `Dict` of two arguments of which the first is the key variable itself. -/
theorem C91_pattern (k1 : Nat) (as : List Arg) : matchesDict k1 as = true ↔ ∃ a, as = [.term k1, a] := by
  constructor
  · intro h
    match as, h with
    | [.term k, a], h => exact ⟨a, by simp [matchesDict] at h; rw [h]⟩
  · rintro ⟨a, rfl⟩
    simp [matchesDict]

/-- The body of the fused sum (179-183), with `Dict(a, b)` read as `Dict((a, b))`. -/
def fused (k1 k2 v2 : Nat) (lhs rhs : Expr) : Expr :=
  .lets lhs v2 (.lets (.var k1) k2 (.dict1 (.var k2) (.lets lhs k2 rhs)))

/-- **C91.** What the fused sum has for an entry: the key of the first sum, with the body of the second where both of its variables are
the value of the first sum. -/
theorem C91_fused (ρ : Nat → Val) (k1 k2 v2 : Nat) (lhs rhs : Expr) (n : Int) (w : Val) (h1 : k1 ≠ v2)
    (hk : ρ k1 = .num n) (hl : ∀ a b, den (upd (upd ρ v2 a) k2 b) lhs = some w) (hl' : den ρ lhs = some w) :
    den ρ (fused k1 k2 v2 lhs rhs) =
      (den (upd (upd (upd ρ v2 w) k2 (.num n)) k2 w) rhs).map fun r => .dict (.cons n r .nil) := by
  have hu : upd ρ v2 w k1 = .num n := by simp [upd, h1, hk]
  have hk2 : upd (upd ρ v2 w) k2 (.num n) k2 = .num n := by simp [upd]
  simp only [fused, den, hl', Option.bind_some, hu, hk2, hl]
  cases den (upd (upd (upd ρ v2 w) k2 (.num n)) k2 w) rhs <;> rfl

example (ρ : Nat → Val) : den (upd (upd ρ 0 (.num 4)) 1 (.num 5)) (fused 0 2 3 (.var 1) (.add (.var 2) (.var 3))) =
    some (.dict (.cons 4 (.num 10) .nil)) := by
  rw [C91_fused _ 0 2 3 _ _ 4 (.num 5) (by decide) (by simp [upd]) (fun a b => by simp [den, upd]) (by simp [den, upd])]
  simp [den, upd, addV]

/-- **C91, fails.** Were the pattern to match, the fused sum would be wrong: the key variable of the second sum gets the value of the
first. Here the second sum maps each key to itself, and the fused one to the value. -/
theorem C91_fused_fails (ρ : Nat → Val) :
    ((den ρ (.sum (.val (.dict (.cons 1 (.num 2) .nil))) 0 1 (.dict1 (.var 0) (.var 1)))).bind fun r =>
      den ρ (.sum (.val r) 2 3 (.dict1 (.var 2) (.var 2)))) = some (.dict (.cons 1 (.num 1) .nil)) ∧
    den ρ (.sum (.val (.dict (.cons 1 (.num 2) .nil))) 0 1 (fused 0 2 3 (.var 1) (.var 2))) =
      some (.dict (.cons 1 (.num 2) .nil)) := by
  constructor <;> simp [den, sum, sumD, upd, addD, Ents.get, Ents.put, fused]

/-! ## Examples -/

/-- Two dictionaries. -/
example : addV (.dict (.cons 1 (.num 2) (.cons 3 (.num 4) .nil))) (.dict (.cons 3 (.num 5) (.cons 0 (.num 6) .nil))) =
    some (.dict (.cons 1 (.num 2) (.cons 3 (.num 9) (.cons 0 (.num 6) .nil)))) := by
  simp [addV, addD, Ents.get, Ents.put]

/-- Their type. -/
example : Has (.dict .num) (.dict (.cons 1 (.num 2) (.cons 3 (.num 4) .nil))) := by
  refine ⟨by simp [Ents.keys], fun k v h => ?_⟩
  simp only [Ents.get] at h
  split at h
  · cases h; trivial
  · split at h
    · cases h; trivial
    · cases h

/-- `test_simple_sum`: the values are added up. -/
example : eval 9 (fun _ => none) (.sum (.val (.dict (.cons 1 (.num 1) (.cons 2 (.num 2) .nil)))) 0 1
    (.dict1 (.val (.num 7)) (.var 1))) = some (some (.val (.dict (.cons 7 (.num 3) .nil)))) := by
  simp [eval, loop, upd, eagerDict, addD, addV, Ents.get, Ents.put]

/-- A constant body is added once for each entry. -/
example : eval 9 (fun _ => none) (.sum (.val (.dict (.cons 1 (.num 1) (.cons 2 (.num 2) .nil)))) 0 1
    (.val (.dict (.cons 7 (.num 5) .nil)))) = some (some (.val (.dict (.cons 7 (.num 10) .nil)))) := by
  simp [eval, loop, addD, addV, Ents.get, Ents.put]

/-- A sum over a variable stays a term, and a `Let` replaces it. -/
example : eval 9 (fun _ => none) (.lets (.val (.dict (.cons 1 (.num 2) .nil))) 5 (.sum (.var 5) 0 1 (.dict1 (.var 0) (.var 1)))) =
    some (some (.val (.dict (.cons 1 (.num 2) .nil)))) := by
  simp [eval, loop, upd, eagerDict, addD, Ents.get, Ents.put]

end Verif.Examples.SemiRing
