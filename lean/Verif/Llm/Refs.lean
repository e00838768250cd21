import Verif.Llm.Blocks

/-!
# C48: inlining references

Model of `_inline_refs` (`handlers/llm/encoding.py` 273-294) on JSON values (`Json`).

* The recursion of `_resolve` through a reference uses fuel; `Fail.deep` stands for a run that has not ended (a
  `RecursionError` in Python). Otherwise it follows the structure of the value.
* `obj["$ref"].split` raises `AttributeError` if the entry is no string.
-/

namespace Verif.Llm

/-- `"$ref"`. -/
def refKey : Text := [36, 114, 101, 102]

/-- `"$defs"`. -/
def defsKey : Text := [36, 100, 101, 102, 115]

/-- `t.split("/")[-1]`. -/
def lastPart (t : Text) : Text := (t.reverse.takeWhile (· != 47)).reverse

/-- What goes wrong: no end, or no string. -/
inductive Fail where
  | deep
  | attribute
deriving DecidableEq

/-- The definitions, and what becomes of them. -/
structure Deref where
  find : Text → Option Json
  go : Json → Except Fail Json

mutual

/-- `_resolve(obj)` (284-292); `D.go` is the recursive call for a definition. -/
def resolveWith (D : Deref) : Json → Except Fail Json
  | .obj l =>
    match l.lookup refKey with
    | some (.str t) =>
      match D.find (lastPart t) with
      | some d => D.go d
      | none => resolveItems D l |>.map .obj
    | some _ => .error .attribute
    | none => resolveItems D l |>.map .obj
  | .arr l => (resolveList D l).map .arr
  | .str t => .ok (.str t)
  | .atom n => .ok (.atom n)
termination_by structural v => v

def resolveList (D : Deref) : List Json → Except Fail (List Json)
  | [] => .ok []
  | v :: l =>
    match resolveWith D v with
    | .error e => .error e
    | .ok w =>
      match resolveList D l with
      | .error e => .error e
      | .ok r => .ok (w :: r)
termination_by structural l => l

/-- `{k: _resolve(v) for k, v in obj.items() if k != "$defs"}`. -/
def resolveItems (D : Deref) : List (Text × Json) → Except Fail (List (Text × Json))
  | [] => .ok []
  | x :: l =>
    if x.1 = defsKey then resolveItems D l
    else
      match resolveItem D x with
      | .error e => .error e
      | .ok w =>
        match resolveItems D l with
        | .error e => .error e
        | .ok r => .ok (w :: r)
termination_by structural l => l

def resolveItem (D : Deref) : Text × Json → Except Fail (Text × Json)
  | (k, v) => (resolveWith D v).map (fun w => (k, w))
termination_by structural x => x

end

/-- `_resolve` with at most `f` references inside of each other. -/
def resolve (find : Text → Option Json) : Nat → Json → Except Fail Json
  | 0 => resolveWith ⟨find, fun _ => .error .deep⟩
  | f + 1 => resolveWith ⟨find, resolve find f⟩

/-- `schema.get("$defs", {})`. -/
def defsOf (schema : List (Text × Json)) : Text → Option Json :=
  match schema.lookup defsKey with
  | some (.obj d) => fun n => d.lookup n
  | _ => fun _ => none

/-- `_inline_refs(schema)`. -/
def inlineRefs (f : Nat) (schema : List (Text × Json)) : Except Fail Json :=
  resolve (defsOf schema) f (.obj schema)

/-! ## What is stated -/

/-- `"#/$defs/"`. -/
def defsPrefix : Text := [35, 47] ++ defsKey ++ [47]

/-- A reference to a definition, alone in its object: `{"$ref": "#/$defs/name"}`. -/
def IsRef (v : Json) (name : Text) : Prop := v = .obj [(refKey, .str (defsPrefix ++ name))] ∧ 47 ∉ name

mutual

/-- Schemas in which references stand alone and refer to definitions of `find`, and no other object has entries `"$ref"`
or `"$defs"`. -/
inductive Tidied (find : Text → Option Json) : Json → Prop where
  | str (t : Text) : Tidied find (.str t)
  | atom (n : Nat) : Tidied find (.atom n)
  | arr (l : List Json) : TidiedList find l → Tidied find (.arr l)
  | ref (v : Json) (name : Text) : IsRef v name → (find name).isSome = true → Tidied find v
  | obj (l : List (Text × Json)) : (∀ x ∈ l, x.1 ≠ refKey ∧ x.1 ≠ defsKey) → TidiedList find (l.map Prod.snd) →
      Tidied find (.obj l)

inductive TidiedList (find : Text → Option Json) : List Json → Prop where
  | nil : TidiedList find []
  | cons (v : Json) (l : List Json) : Tidied find v → TidiedList find l → TidiedList find (v :: l)

end

mutual

/-- The names referred to in a value (outside of definitions). -/
inductive Mentions (name : Text) : Json → Prop where
  | here (v : Json) : IsRef v name → Mentions name v
  | arr (l : List Json) : MentionsList name l → Mentions name (.arr l)
  | obj (l : List (Text × Json)) : MentionsList name (l.map Prod.snd) → Mentions name (.obj l)

inductive MentionsList (name : Text) : List Json → Prop where
  | head (v : Json) (l : List Json) : Mentions name v → MentionsList name (v :: l)
  | tail (v : Json) (l : List Json) : MentionsList name l → MentionsList name (v :: l)

end

/-- The definition of `n` refers to `m`. -/
def Uses (find : Text → Option Json) (m n : Text) : Prop := ∃ d, find n = some d ∧ Mentions m d

/-- Whatever schemas mean, the parts of the meaning: for strings, numbers, lists and objects. -/
structure Meaning (S : Type) where
  str : Text → S
  atom : Nat → S
  arr : List S → S
  obj : List (Text × S) → S

mutual

/-- The meaning of a schema; a reference means what its definition means. -/
inductive Means {S : Type} (M : Meaning S) (find : Text → Option Json) : Json → S → Prop where
  | str (t : Text) : Means M find (.str t) (M.str t)
  | atom (n : Nat) : Means M find (.atom n) (M.atom n)
  | arr (l : List Json) (xs : List S) : MeansList M find l xs → Means M find (.arr l) (M.arr xs)
  | ref (v : Json) (name : Text) (d : Json) (x : S) : IsRef v name → find name = some d → Means M find d x → Means M find v x
  | obj (l : List (Text × Json)) (xs : List S) : (∀ x ∈ l, x.1 ≠ refKey) → MeansList M find (l.map Prod.snd) xs →
      Means M find (.obj l) (M.obj ((l.map Prod.fst).zip xs))

inductive MeansList {S : Type} (M : Meaning S) (find : Text → Option Json) : List Json → List S → Prop where
  | nil : MeansList M find [] []
  | cons (v : Json) (l : List Json) (x : S) (xs : List S) : Means M find v x → MeansList M find l xs →
      MeansList M find (v :: l) (x :: xs)

end

mutual

/-- No references or definitions in a value. -/
inductive RefFree : Json → Prop where
  | str (t : Text) : RefFree (.str t)
  | atom (n : Nat) : RefFree (.atom n)
  | arr (l : List Json) : RefFreeList l → RefFree (.arr l)
  | obj (l : List (Text × Json)) : (∀ x ∈ l, x.1 ≠ refKey ∧ x.1 ≠ defsKey) → RefFreeList (l.map Prod.snd) →
      RefFree (.obj l)

inductive RefFreeList : List Json → Prop where
  | nil : RefFreeList []
  | cons (v : Json) (l : List Json) : RefFree v → RefFreeList l → RefFreeList (v :: l)

end

/-- The entries of a schema other than its definitions. -/
def strip (schema : List (Text × Json)) : List (Text × Json) := schema.filter (fun x => x.1 != defsKey)

/-! ## Proofs -/

theorem lastPart_prefix {name : Text} (h : 47 ∉ name) : lastPart (defsPrefix ++ name) = name := by
  unfold lastPart
  rw [List.reverse_append, List.takeWhile_append_of_pos]
  · simp [defsPrefix]
  · intro a ha
    have : a ∈ name := List.mem_reverse.1 ha
    simp only [bne_iff_ne]
    rintro rfl
    exact h this

theorem isRef_inj {v : Json} {a b : Text} (ha : IsRef v a) (hb : IsRef v b) : a = b := by
  have := ha.1.symm.trans hb.1
  simp only [Json.obj.injEq, List.cons.injEq, Prod.mk.injEq, Json.str.injEq, true_and, and_true,
    List.append_cancel_left_eq] at this
  exact this

theorem resolveWith_ref {D : Deref} {v : Json} {name : Text} (h : IsRef v name) {d : Json} (hd : D.find name = some d) :
    resolveWith D v = D.go d := by
  obtain ⟨rfl, h⟩ := h
  rw [resolveWith]
  simp only [List.lookup_cons, beq_self_eq_true]
  rw [lastPart_prefix h, hd]

theorem lookup_none {l : List (Text × Json)} {k : Text} (h : ∀ x ∈ l, x.1 ≠ k) : l.lookup k = none := by
  induction l with
  | nil => rfl
  | cons x l ih =>
    obtain ⟨a, v⟩ := x
    rw [List.lookup_cons, beq_eq_false_iff_ne.2 (fun e => h (a, v) (by simp) e.symm)]
    exact ih (fun y hy => h y (List.mem_cons_of_mem _ hy))

theorem resolveWith_obj {D : Deref} {l : List (Text × Json)} (h : ∀ x ∈ l, x.1 ≠ refKey) :
    resolveWith D (.obj l) = (resolveItems D l).map .obj := by
  rw [resolveWith, lookup_none h]

mutual

/-- What `resolveWith` gives, provided the recursive calls are good. -/
theorem resolveWith_spec {D : Deref} {S : Type} (M : Meaning S) (hgo : ∀ d w, D.go d = .ok w → (∃ n, D.find n = some d) →
      RefFree w ∧ ∀ x, Means M D.find d x ↔ Means M (fun _ => none) w x) :
    ∀ (v : Json), Tidied D.find v → ∀ w, resolveWith D v = .ok w →
      RefFree w ∧ ∀ x, Means M D.find v x ↔ Means M (fun _ => none) w x
  | .str t, _, w, h => by
    rw [resolveWith] at h; cases h
    refine ⟨.str t, fun x => ⟨?_, ?_⟩⟩
    · intro hx
      cases hx with
      | str t => exact .str t
      | ref v name d x hr => exact absurd hr.1 (by simp)
    · intro hx
      cases hx with
      | str t => exact .str t
      | ref v name d x hr => exact absurd hr.1 (by simp)
  | .atom t, _, w, h => by
    rw [resolveWith] at h; cases h
    refine ⟨.atom t, fun x => ⟨?_, ?_⟩⟩
    · intro hx
      cases hx with
      | atom t => exact .atom t
      | ref v name d x hr => exact absurd hr.1 (by simp)
    · intro hx
      cases hx with
      | atom t => exact .atom t
      | ref v name d x hr => exact absurd hr.1 (by simp)
  | .arr l, ht, w, h => by
    rw [resolveWith] at h
    cases hl : resolveList D l with
    | error e => rw [hl] at h; cases h
    | ok r =>
      rw [hl] at h; cases h
      have htl : TidiedList D.find l := by
        cases ht with
        | arr l h => exact h
        | ref v name hr => exact absurd hr.1 (by simp)
      obtain ⟨h1, h2⟩ := resolveList_spec M hgo l htl r hl
      refine ⟨.arr _ h1, fun x => ⟨?_, ?_⟩⟩
      · intro hx
        cases hx with
        | arr l xs hx => exact .arr _ _ ((h2 xs).1 hx)
        | ref v name d x hr => exact absurd hr.1 (by simp)
      · intro hx
        cases hx with
        | arr l xs hx => exact .arr _ _ ((h2 xs).2 hx)
        | ref v name d x hr => exact absurd hr.1 (by simp)
  | .obj l, ht, w, h => by
    cases ht with
    | ref v name hr hs =>
      obtain ⟨d, hd⟩ := Option.isSome_iff_exists.1 hs
      rw [resolveWith_ref hr hd] at h
      obtain ⟨h1, h2⟩ := hgo d w h ⟨name, hd⟩
      refine ⟨h1, fun x => ?_⟩
      rw [← h2 x]
      constructor
      · intro hx
        cases hx with
        | ref v n' d' x hr' hd' hx =>
          have := isRef_inj hr hr'
          subst this
          rw [hd] at hd'; cases hd'
          exact hx
        | obj l xs hn =>
          have := hr.1
          simp only [Json.obj.injEq] at this
          subst this
          exact absurd rfl (hn _ (List.mem_singleton.2 rfl))
      · intro hx
        exact .ref _ name d x hr hd hx
    | obj l hk htl =>
      rw [resolveWith_obj (fun x hx => (hk x hx).1)] at h
      cases hl : resolveItems D l with
      | error e => rw [hl] at h; cases h
      | ok r =>
        rw [hl] at h; cases h
        obtain ⟨h1, h2, h3⟩ := resolveItems_spec M hgo l (fun x hx => (hk x hx).2) htl r hl
        have hk' : ∀ x ∈ r, x.1 ≠ refKey ∧ x.1 ≠ defsKey := by
          intro x hx
          have : x.1 ∈ l.map Prod.fst := by rw [← h1]; exact List.mem_map.2 ⟨x, hx, rfl⟩
          obtain ⟨y, hy, e⟩ := List.mem_map.1 this
          rw [← e]; exact hk y hy
        refine ⟨.obj _ hk' h2, fun x => ⟨?_, ?_⟩⟩
        · intro hx
          cases hx with
          | ref v n' d' x hr' =>
            have := hr'.1
            simp only [Json.obj.injEq] at this
            subst this
            exact absurd rfl (hk _ (List.mem_singleton.2 rfl)).1
          | obj l xs hn hx =>
            rw [← h1]
            exact .obj _ _ (fun x hx => (hk' x hx).1) ((h3 xs).1 hx)
        · intro hx
          cases hx with
          | ref v n' d' x hr' =>
            have := hr'.1
            simp only [Json.obj.injEq] at this
            subst this
            exact absurd rfl (hk' _ (List.mem_singleton.2 rfl)).1
          | obj _ xs hn hx =>
            rw [h1]
            exact .obj _ _ (fun x hx => (hk x hx).1) ((h3 xs).2 hx)
termination_by structural v => v

theorem resolveList_spec {D : Deref} {S : Type} (M : Meaning S) (hgo : ∀ d w, D.go d = .ok w → (∃ n, D.find n = some d) →
      RefFree w ∧ ∀ x, Means M D.find d x ↔ Means M (fun _ => none) w x) :
    ∀ (l : List Json), TidiedList D.find l → ∀ r, resolveList D l = .ok r →
      RefFreeList r ∧ ∀ xs, MeansList M D.find l xs ↔ MeansList M (fun _ => none) r xs
  | [], _, r, h => by
    rw [resolveList] at h; cases h
    refine ⟨.nil, fun xs => ⟨?_, ?_⟩⟩
    · intro hx; cases hx; exact .nil
    · intro hx; cases hx; exact .nil
  | v :: l, ht, r, h => by
    rw [resolveList] at h
    cases h1 : resolveWith D v with
    | error e => rw [h1] at h; cases h
    | ok w =>
      rw [h1] at h
      simp only at h
      cases h2 : resolveList D l with
      | error e => rw [h2] at h; cases h
      | ok r' =>
        rw [h2] at h; cases h
        cases ht with
        | cons _ _ t1 t2 =>
          obtain ⟨a1, a2⟩ := resolveWith_spec M hgo v t1 w h1
          obtain ⟨b1, b2⟩ := resolveList_spec M hgo l t2 r' h2
          refine ⟨.cons _ _ a1 b1, fun xs => ⟨?_, ?_⟩⟩
          · intro hx
            cases hx with
            | cons _ _ x xs hx hxs => exact .cons _ _ _ _ ((a2 x).1 hx) ((b2 xs).1 hxs)
          · intro hx
            cases hx with
            | cons _ _ x xs hx hxs => exact .cons _ _ _ _ ((a2 x).2 hx) ((b2 xs).2 hxs)
termination_by structural l => l

theorem resolveItems_spec {D : Deref} {S : Type} (M : Meaning S) (hgo : ∀ d w, D.go d = .ok w → (∃ n, D.find n = some d) →
      RefFree w ∧ ∀ x, Means M D.find d x ↔ Means M (fun _ => none) w x) :
    ∀ (l : List (Text × Json)), (∀ x ∈ l, x.1 ≠ defsKey) → TidiedList D.find (l.map Prod.snd) →
    ∀ r, resolveItems D l = .ok r →
      r.map Prod.fst = l.map Prod.fst ∧ RefFreeList (r.map Prod.snd) ∧
      ∀ xs, MeansList M D.find (l.map Prod.snd) xs ↔ MeansList M (fun _ => none) (r.map Prod.snd) xs
  | [], _, _, r, h => by
    rw [resolveItems] at h; cases h
    refine ⟨rfl, .nil, fun xs => ⟨?_, ?_⟩⟩
    · intro hx; cases hx; exact .nil
    · intro hx; cases hx; exact .nil
  | x :: l, hk, ht, r, h => by
    rw [resolveItems, if_neg (hk x (by simp))] at h
    cases h1 : resolveItem D x with
    | error e => rw [h1] at h; cases h
    | ok w =>
      rw [h1] at h
      simp only at h
      cases h2 : resolveItems D l with
      | error e => rw [h2] at h; cases h
      | ok r' =>
        rw [h2] at h; cases h
        rw [List.map_cons] at ht
        cases ht with
        | cons _ _ t1 t2 =>
          obtain ⟨e1, a1, a2⟩ := resolveItem_spec M hgo x t1 w h1
          obtain ⟨e2, b1, b2⟩ := resolveItems_spec M hgo l (fun y hy => hk y (List.mem_cons_of_mem _ hy)) t2 r' h2
          refine ⟨by simp [e1, e2], .cons _ _ a1 b1, fun xs => ⟨?_, ?_⟩⟩
          · intro hx
            cases hx with
            | cons _ _ x xs hx hxs => exact .cons _ _ _ _ ((a2 x).1 hx) ((b2 xs).1 hxs)
          · intro hx
            cases hx with
            | cons _ _ x xs hx hxs => exact .cons _ _ _ _ ((a2 x).2 hx) ((b2 xs).2 hxs)
termination_by structural l => l

theorem resolveItem_spec {D : Deref} {S : Type} (M : Meaning S) (hgo : ∀ d w, D.go d = .ok w → (∃ n, D.find n = some d) →
      RefFree w ∧ ∀ x, Means M D.find d x ↔ Means M (fun _ => none) w x) :
    ∀ (x : Text × Json), Tidied D.find x.2 → ∀ w, resolveItem D x = .ok w →
      w.1 = x.1 ∧ RefFree w.2 ∧ ∀ y, Means M D.find x.2 y ↔ Means M (fun _ => none) w.2 y
  | (k, v), ht, w, h => by
    rw [resolveItem] at h
    cases h1 : resolveWith D v with
    | error e => rw [h1] at h; cases h
    | ok u =>
      rw [h1] at h; cases h
      exact ⟨rfl, resolveWith_spec M hgo v ht u h1⟩
termination_by structural x => x

end

theorem resolve_spec {S : Type} (M : Meaning S) (find : Text → Option Json) (hf : ∀ n d, find n = some d → Tidied find d)
    (f : Nat) (v : Json) (hv : Tidied find v) (w : Json) (h : resolve find f v = .ok w) :
    RefFree w ∧ ∀ x, Means M find v x ↔ Means M (fun _ => none) w x := by
  induction f generalizing v w with
  | zero =>
    rw [resolve] at h
    exact resolveWith_spec (D := ⟨find, fun _ => .error .deep⟩) M (fun d w h _ => by cases h) v hv w h
  | succ f ih =>
    rw [resolve] at h
    exact resolveWith_spec (D := ⟨find, resolve find f⟩) M (fun d w h ⟨n, hn⟩ => ih d (hf n d hn) w h) v hv w h

/-! ## Termination -/

mutual

/-- If the recursive calls that ended end with the same result, so does the whole. -/
theorem resolveWith_mono {D D' : Deref} (hfind : D.find = D'.find) (hgo : ∀ d w, D.go d = .ok w → D'.go d = .ok w) :
    ∀ (v w : Json), resolveWith D v = .ok w → resolveWith D' v = .ok w
  | .str t, w, h => by rw [resolveWith] at h ⊢; exact h
  | .atom t, w, h => by rw [resolveWith] at h ⊢; exact h
  | .arr l, w, h => by
    rw [resolveWith] at h ⊢
    cases hl : resolveList D l with
    | error e => rw [hl] at h; cases h
    | ok r =>
      rw [hl] at h; cases h
      rw [resolveList_mono hfind hgo l r hl]; rfl
  | .obj l, w, h => by
    have hi : ∀ w, (resolveItems D l).map Json.obj = .ok w → (resolveItems D' l).map Json.obj = .ok w := by
      intro w h
      cases hl : resolveItems D l with
      | error e => rw [hl] at h; cases h
      | ok r =>
        rw [hl] at h; cases h
        rw [resolveItems_mono hfind hgo l r hl]; rfl
    rw [resolveWith] at h ⊢
    rw [← hfind]
    cases hk : l.lookup refKey with
    | none => rw [hk] at h; exact hi w h
    | some k =>
      rw [hk] at h
      cases k with
      | str t =>
        simp only at h ⊢
        cases hd : D.find (lastPart t) with
        | none => rw [hd] at h; exact hi w h
        | some d => rw [hd] at h; exact hgo d w h
      | atom n => cases h
      | arr x => cases h
      | obj x => cases h
termination_by structural v => v

theorem resolveList_mono {D D' : Deref} (hfind : D.find = D'.find) (hgo : ∀ d w, D.go d = .ok w → D'.go d = .ok w) :
    ∀ (l r : List Json), resolveList D l = .ok r → resolveList D' l = .ok r
  | [], r, h => by rw [resolveList] at h ⊢; exact h
  | v :: l, r, h => by
    rw [resolveList] at h ⊢
    cases h1 : resolveWith D v with
    | error e => rw [h1] at h; cases h
    | ok w =>
      rw [h1] at h
      simp only at h
      cases h2 : resolveList D l with
      | error e => rw [h2] at h; cases h
      | ok r' =>
        rw [h2] at h
        rw [resolveWith_mono hfind hgo v w h1, resolveList_mono hfind hgo l r' h2]
        exact h
termination_by structural l => l

theorem resolveItems_mono {D D' : Deref} (hfind : D.find = D'.find) (hgo : ∀ d w, D.go d = .ok w → D'.go d = .ok w) :
    ∀ (l r : List (Text × Json)), resolveItems D l = .ok r → resolveItems D' l = .ok r
  | [], r, h => by rw [resolveItems] at h ⊢; exact h
  | x :: l, r, h => by
    rw [resolveItems] at h ⊢
    by_cases hk : x.1 = defsKey
    · rw [if_pos hk] at h ⊢
      exact resolveItems_mono hfind hgo l r h
    · rw [if_neg hk] at h ⊢
      cases h1 : resolveItem D x with
      | error e => rw [h1] at h; cases h
      | ok w =>
        rw [h1] at h
        simp only at h
        cases h2 : resolveItems D l with
        | error e => rw [h2] at h; cases h
        | ok r' =>
          rw [h2] at h
          rw [resolveItem_mono hfind hgo x w h1, resolveItems_mono hfind hgo l r' h2]
          exact h
termination_by structural l => l

theorem resolveItem_mono {D D' : Deref} (hfind : D.find = D'.find) (hgo : ∀ d w, D.go d = .ok w → D'.go d = .ok w) :
    ∀ (x r : Text × Json), resolveItem D x = .ok r → resolveItem D' x = .ok r
  | (k, v), r, h => by
    rw [resolveItem] at h ⊢
    cases h1 : resolveWith D v with
    | error e => rw [h1] at h; cases h
    | ok w =>
      rw [h1] at h
      rw [resolveWith_mono hfind hgo v w h1]; exact h
termination_by structural x => x

end

theorem resolve_succ {find : Text → Option Json} (f : Nat) (v w : Json) (h : resolve find f v = .ok w) :
    resolve find (f + 1) v = .ok w := by
  induction f generalizing v w with
  | zero =>
    exact resolveWith_mono (D := ⟨find, fun _ => .error .deep⟩) (D' := ⟨find, resolve find 0⟩) rfl
      (fun d w h => by cases h) v w h
  | succ f ih =>
    exact resolveWith_mono (D := ⟨find, resolve find f⟩) (D' := ⟨find, resolve find (f + 1)⟩) rfl ih v w h

theorem resolve_le {find : Text → Option Json} {f g : Nat} (hfg : f ≤ g) {v w : Json} (h : resolve find f v = .ok w) :
    resolve find g v = .ok w := by
  induction hfg with
  | refl => exact h
  | step _ ih => exact resolve_succ _ v w ih

theorem mentions_obj {l : List (Text × Json)} {n : Text} (h : Mentions n (.obj l)) :
    IsRef (.obj l) n ∨ MentionsList n (l.map Prod.snd) := by
  cases h with
  | here v h => exact .inl h
  | obj l h => exact .inr h

mutual

/-- All definitions that are referred to have been resolved. -/
theorem resolveWith_needs {D : Deref} {n : Text} : ∀ (v : Json), Tidied D.find v → Mentions n v →
    ∀ w, resolveWith D v = .ok w → ∃ d w', D.find n = some d ∧ D.go d = .ok w'
  | .str t, _, hm, w, h => by
    cases hm with
    | here v hr => exact absurd hr.1 (by simp)
  | .atom t, _, hm, w, h => by
    cases hm with
    | here v hr => exact absurd hr.1 (by simp)
  | .arr l, ht, hm, w, h => by
    rw [resolveWith] at h
    cases hl : resolveList D l with
    | error e => rw [hl] at h; cases h
    | ok r =>
      have htl : TidiedList D.find l := by
        cases ht with
        | arr l h => exact h
        | ref v name hr => exact absurd hr.1 (by simp)
      cases hm with
      | here v hr => exact absurd hr.1 (by simp)
      | arr l hm => exact resolveList_needs l htl hm r hl
  | .obj l, ht, hm, w, h => by
    cases ht with
    | ref v name hr hs =>
      obtain ⟨d, hd⟩ := Option.isSome_iff_exists.1 hs
      rw [resolveWith_ref hr hd] at h
      rcases mentions_obj hm with hr' | hm'
      · rw [isRef_inj hr' hr]
        exact ⟨d, w, hd, h⟩
      · have := hr.1
        simp only [Json.obj.injEq] at this
        rw [this] at hm'
        simp only [List.map_cons, List.map_nil] at hm'
        cases hm' with
        | head v l hm' =>
          cases hm' with
          | here v hr => exact absurd hr.1 (by simp)
        | tail v l hm' => cases hm'
    | obj l hk htl =>
      rw [resolveWith_obj (fun x hx => (hk x hx).1)] at h
      cases hl : resolveItems D l with
      | error e => rw [hl] at h; cases h
      | ok r =>
        rcases mentions_obj hm with hr' | hm'
        · have := hr'.1
          simp only [Json.obj.injEq] at this
          subst this
          exact absurd rfl (hk _ (List.mem_singleton.2 rfl)).1
        · exact resolveItems_needs l (fun x hx => (hk x hx).2) htl hm' r hl
termination_by structural v => v

theorem resolveList_needs {D : Deref} {n : Text} : ∀ (l : List Json), TidiedList D.find l → MentionsList n l →
    ∀ r, resolveList D l = .ok r → ∃ d w', D.find n = some d ∧ D.go d = .ok w'
  | [], _, hm, r, h => by cases hm
  | v :: l, ht, hm, r, h => by
    rw [resolveList] at h
    cases h1 : resolveWith D v with
    | error e => rw [h1] at h; cases h
    | ok w =>
      rw [h1] at h
      simp only at h
      cases h2 : resolveList D l with
      | error e => rw [h2] at h; cases h
      | ok r' =>
        cases ht with
        | cons _ _ t1 t2 =>
          cases hm with
          | head _ _ hm => exact resolveWith_needs v t1 hm w h1
          | tail _ _ hm => exact resolveList_needs l t2 hm r' h2
termination_by structural l => l

theorem resolveItems_needs {D : Deref} {n : Text} : ∀ (l : List (Text × Json)), (∀ x ∈ l, x.1 ≠ defsKey) →
    TidiedList D.find (l.map Prod.snd) → MentionsList n (l.map Prod.snd) →
    ∀ r, resolveItems D l = .ok r → ∃ d w', D.find n = some d ∧ D.go d = .ok w'
  | [], _, _, hm, r, h => by cases hm
  | x :: l, hk, ht, hm, r, h => by
    rw [resolveItems, if_neg (hk x (by simp))] at h
    cases h1 : resolveItem D x with
    | error e => rw [h1] at h; cases h
    | ok w =>
      rw [h1] at h
      simp only at h
      cases h2 : resolveItems D l with
      | error e => rw [h2] at h; cases h
      | ok r' =>
        rw [List.map_cons] at ht hm
        cases ht with
        | cons _ _ t1 t2 =>
          cases hm with
          | head _ _ hm => exact resolveItem_needs x t1 hm w h1
          | tail _ _ hm => exact resolveItems_needs l (fun y hy => hk y (List.mem_cons_of_mem _ hy)) t2 hm r' h2
termination_by structural l => l

theorem resolveItem_needs {D : Deref} {n : Text} : ∀ (x : Text × Json), Tidied D.find x.2 → Mentions n x.2 →
    ∀ w, resolveItem D x = .ok w → ∃ d w', D.find n = some d ∧ D.go d = .ok w'
  | (k, v), ht, hm, w, h => by
    rw [resolveItem] at h
    cases h1 : resolveWith D v with
    | error e => rw [h1] at h; cases h
    | ok u => exact resolveWith_needs v ht hm u h1
termination_by structural x => x

end

mutual

/-- If all definitions referred to can be resolved, so can the value. -/
theorem resolve_ok {find : Text → Option Json} : ∀ (v : Json), Tidied find v →
    (∀ n, Mentions n v → ∀ d, find n = some d → ∃ f w, resolve find f d = .ok w) →
    ∃ f w, resolve find (f + 1) v = .ok w
  | .str t, _, _ => ⟨0, .str t, by rw [resolve, resolveWith]⟩
  | .atom t, _, _ => ⟨0, .atom t, by rw [resolve, resolveWith]⟩
  | .arr l, ht, hn => by
    have htl : TidiedList find l := by
      cases ht with
      | arr l h => exact h
      | ref v name hr => exact absurd hr.1 (by simp)
    obtain ⟨f, r, h⟩ := resolveList_ok l htl (fun n hm => hn n (.arr l hm))
    exact ⟨f, .arr r, by rw [resolve, resolveWith, h]; rfl⟩
  | .obj l, ht, hn => by
    cases ht with
    | ref v name hr hs =>
      obtain ⟨d, hd⟩ := Option.isSome_iff_exists.1 hs
      obtain ⟨f, w, h⟩ := hn name (.here _ hr) d hd
      exact ⟨f, w, by rw [resolve, resolveWith_ref (D := ⟨find, resolve find f⟩) hr hd]; exact h⟩
    | obj l hk htl =>
      obtain ⟨f, r, h⟩ := resolveItems_ok l htl (fun n hm => hn n (.obj l hm))
      exact ⟨f, .obj r, by rw [resolve, resolveWith_obj (fun x hx => (hk x hx).1), h]; rfl⟩
termination_by structural v => v

theorem resolveList_ok {find : Text → Option Json} : ∀ (l : List Json), TidiedList find l →
    (∀ n, MentionsList n l → ∀ d, find n = some d → ∃ f w, resolve find f d = .ok w) →
    ∃ f r, resolveList ⟨find, resolve find f⟩ l = .ok r
  | [], _, _ => ⟨0, [], by rw [resolveList]⟩
  | v :: l, ht, hn => by
    cases ht with
    | cons _ _ t1 t2 =>
      obtain ⟨f, w, h1⟩ := resolve_ok v t1 (fun n hm => hn n (.head _ _ hm))
      obtain ⟨g, r, h2⟩ := resolveList_ok l t2 (fun n hm => hn n (.tail _ _ hm))
      have k1 := resolve_le (show f + 1 ≤ max f g + 1 by omega) h1
      rw [resolve] at k1
      have k2 := resolveList_mono (D := ⟨find, resolve find g⟩) (D' := ⟨find, resolve find (max f g)⟩) rfl
        (fun d w h => resolve_le (show g ≤ max f g by omega) h) l r h2
      exact ⟨max f g, w :: r, by rw [resolveList, k1, k2]⟩
termination_by structural l => l

theorem resolveItems_ok {find : Text → Option Json} : ∀ (l : List (Text × Json)), TidiedList find (l.map Prod.snd) →
    (∀ n, MentionsList n (l.map Prod.snd) → ∀ d, find n = some d → ∃ f w, resolve find f d = .ok w) →
    ∃ f r, resolveItems ⟨find, resolve find f⟩ l = .ok r
  | [], _, _ => ⟨0, [], by rw [resolveItems]⟩
  | x :: l, ht, hn => by
    rw [List.map_cons] at ht
    cases ht with
    | cons _ _ t1 t2 =>
      obtain ⟨f, w, h1⟩ := resolveItem_ok x t1 (fun n hm => hn n (.head _ _ hm))
      obtain ⟨g, r, h2⟩ := resolveItems_ok l t2 (fun n hm => hn n (.tail _ _ hm))
      have k1 := resolveItem_mono (D := ⟨find, resolve find f⟩) (D' := ⟨find, resolve find (max f g)⟩) rfl
        (fun d w h => resolve_le (show f ≤ max f g by omega) h) x w h1
      have k2 := resolveItems_mono (D := ⟨find, resolve find g⟩) (D' := ⟨find, resolve find (max f g)⟩) rfl
        (fun d w h => resolve_le (show g ≤ max f g by omega) h) l r h2
      by_cases hk : x.1 = defsKey
      · exact ⟨max f g, r, by rw [resolveItems, if_pos hk, k2]⟩
      · exact ⟨max f g, w :: r, by rw [resolveItems, if_neg hk, k1, k2]⟩
termination_by structural l => l

theorem resolveItem_ok {find : Text → Option Json} : ∀ (x : Text × Json), Tidied find x.2 →
    (∀ n, Mentions n x.2 → ∀ d, find n = some d → ∃ f w, resolve find f d = .ok w) →
    ∃ f w, resolveItem ⟨find, resolve find f⟩ x = .ok w
  | (k, v), ht, hn => by
    obtain ⟨f, w, h⟩ := resolve_ok v ht hn
    rw [resolve] at h
    exact ⟨f, (k, w), by rw [resolveItem, h]; rfl⟩
termination_by structural x => x

end

theorem resolve_acc {find : Text → Option Json} (hf : ∀ n d, find n = some d → Tidied find d) (f : Nat) :
    ∀ (v : Json), Tidied find v → ∀ w, resolve find f v = .ok w → ∀ n, Mentions n v → Acc (Uses find) n := by
  induction f with
  | zero =>
    intro v hv w h n hn
    rw [resolve] at h
    obtain ⟨d, w', -, hg⟩ := resolveWith_needs (D := ⟨find, fun _ => .error .deep⟩) v hv hn w h
    cases hg
  | succ f ih =>
    intro v hv w h n hn
    rw [resolve] at h
    obtain ⟨d, w', hd, hg⟩ := resolveWith_needs (D := ⟨find, resolve find f⟩) v hv hn w h
    refine Acc.intro n (fun m hm => ?_)
    obtain ⟨d', hd', hm⟩ := hm
    have hd : find n = some d := hd
    rw [hd] at hd'; cases hd'
    exact ih d (hf n d hd) w' hg m hm

theorem resolve_of_acc {find : Text → Option Json} (hf : ∀ n d, find n = some d → Tidied find d) (n : Text)
    (h : Acc (Uses find) n) : ∀ d, find n = some d → ∃ f w, resolve find f d = .ok w := by
  induction h with
  | intro n _ ih =>
    intro d hd
    obtain ⟨f, w, h⟩ := resolve_ok d (hf n d hd) (fun m hm => ih m ⟨d, hd, hm⟩)
    exact ⟨f + 1, w, h⟩

/-! ## The whole schema -/

theorem lookup_strip (l : List (Text × Json)) : (strip l).lookup refKey = l.lookup refKey := by
  induction l with
  | nil => rfl
  | cons x l ih =>
    obtain ⟨k, v⟩ := x
    unfold strip at *
    by_cases hk : k = defsKey
    · rw [List.filter_cons_of_neg (by simp [hk]), ih, List.lookup_cons]
      have : (refKey == k) = false := by rw [hk]; decide
      rw [this]
    · rw [List.filter_cons_of_pos (by simpa using hk), List.lookup_cons, List.lookup_cons, ih]

theorem resolveItems_strip (D : Deref) (l : List (Text × Json)) : resolveItems D (strip l) = resolveItems D l := by
  induction l with
  | nil => rfl
  | cons x l ih =>
    unfold strip at *
    by_cases hk : x.1 = defsKey
    · rw [List.filter_cons_of_neg (by simp [hk]), ih, resolveItems, if_pos hk]
    · rw [List.filter_cons_of_pos (by simpa using hk), resolveItems, if_neg hk, resolveItems, if_neg hk, ih]

theorem resolveWith_strip (D : Deref) (l : List (Text × Json)) :
    resolveWith D (.obj (strip l)) = resolveWith D (.obj l) := by
  rw [resolveWith, resolveWith, lookup_strip, resolveItems_strip]

theorem inlineRefs_strip (f : Nat) (l : List (Text × Json)) :
    inlineRefs f l = resolve (defsOf l) f (.obj (strip l)) := by
  unfold inlineRefs
  cases f with
  | zero => rw [resolve, resolveWith_strip]
  | succ f => rw [resolve, resolveWith_strip]

/-- Inlining ends iff no definition that is referred to, directly or not, refers to itself in circles. -/
theorem C48_terminates_partial (schema : List (Text × Json))
    (hf : ∀ n d, defsOf schema n = some d → Tidied (defsOf schema) d)
    (hs : Tidied (defsOf schema) (.obj (strip schema))) :
    (∃ f w, inlineRefs f schema = .ok w) ↔
      ∀ n, Mentions n (.obj (strip schema)) → Acc (Uses (defsOf schema)) n := by
  constructor
  · rintro ⟨f, w, h⟩
    rw [inlineRefs_strip] at h
    exact resolve_acc hf f _ hs w h
  · intro h
    obtain ⟨f, w, hw⟩ := resolve_ok (.obj (strip schema)) hs (fun n hn => resolve_of_acc hf n (h n hn))
    exact ⟨f + 1, w, by rw [inlineRefs_strip]; exact hw⟩

/-- The result has no references and no definitions. -/
theorem C48_ref_free_partial (schema : List (Text × Json))
    (hf : ∀ n d, defsOf schema n = some d → Tidied (defsOf schema) d)
    (hs : Tidied (defsOf schema) (.obj (strip schema))) (f : Nat) (w : Json) (h : inlineRefs f schema = .ok w) :
    RefFree w := by
  rw [inlineRefs_strip] at h
  exact (resolve_spec (S := Unit) ⟨fun _ => (), fun _ => (), fun _ => (), fun _ => ()⟩ _ hf f _ hs w h).1

/-- The result means the same as the schema. -/
theorem C48_equivalent_partial (schema : List (Text × Json))
    (hf : ∀ n d, defsOf schema n = some d → Tidied (defsOf schema) d)
    (hs : Tidied (defsOf schema) (.obj (strip schema))) (f : Nat) (w : Json) (h : inlineRefs f schema = .ok w)
    (S : Type) (M : Meaning S) (x : S) :
    Means M (defsOf schema) (.obj (strip schema)) x ↔ Means M (fun _ => none) w x := by
  rw [inlineRefs_strip] at h
  exact (resolve_spec M _ hf f _ hs w h).2 x

namespace RefsExample

/-- `{"$ref": "#/$defs/A"}` and similar. -/
def ref (n : Text) : Json := .obj [(refKey, .str (defsPrefix ++ n))]
def A : Text := [65]
def B : Text := [66]
def props : Text := [112]

/-- `{"p": {"$ref": A}, "$defs": {"A": {"p": [{"$ref": B}]}, "B": 3}}` -/
def good : List (Text × Json) :=
  [(props, ref A), (defsKey, .obj [(A, .obj [(props, .arr [ref B])]), (B, .atom 3)])]

example : inlineRefs 2 good = .ok (.obj [(props, .obj [(props, .arr [.atom 3])])]) := rfl
example : inlineRefs 1 good = .error .deep := rfl
example : Tidied (defsOf good) (.obj (strip good)) :=
  .obj _ (by simp [strip, good, props, refKey, defsKey])
    (.cons _ _ (.ref _ A ⟨rfl, by simp [A]⟩ rfl) .nil)
example : Tidied (defsOf good) (.obj [(props, .arr [ref B])]) :=
  .obj _ (by simp [props, refKey, defsKey]) (.cons _ _ (.arr _ (.cons _ _ (.ref _ B ⟨rfl, by simp [B]⟩ rfl) .nil)) .nil)

/-- A tree: `{"$ref": A, "$defs": {"A": {"p": {"$ref": A}}}}`. -/
def tree : List (Text × Json) :=
  [(refKey, .str (defsPrefix ++ A)), (defsKey, .obj [(A, .obj [(props, ref A)])])]

end RefsExample

open RefsExample

theorem tree_tidied : (∀ n d, defsOf tree n = some d → Tidied (defsOf tree) d) ∧
    Tidied (defsOf tree) (.obj (strip tree)) := by
  refine ⟨?_, .ref _ A ⟨rfl, by simp [A]⟩ rfl⟩
  intro n d h
  have h : List.lookup n [(A, Json.obj [(props, ref A)])] = some d := h
  rw [List.lookup_cons] at h
  split at h
  · cases h
    exact .obj _ (by simp [props, refKey, defsKey]) (.cons _ _ (.ref _ A ⟨rfl, by simp [A]⟩ rfl) .nil)
  · simp at h

/-- For the schema of a recursive type, inlining does not end. -/
theorem C48_recursive_fails : ∃ schema, (∀ n d, defsOf schema n = some d → Tidied (defsOf schema) d) ∧
    Tidied (defsOf schema) (.obj (strip schema)) ∧ ∀ f w, inlineRefs f schema ≠ .ok w := by
  refine ⟨tree, tree_tidied.1, tree_tidied.2, ?_⟩
  intro f w h
  have := (C48_terminates_partial tree tree_tidied.1 tree_tidied.2).1 ⟨f, w, h⟩ A (.here _ ⟨rfl, by simp [A]⟩)
  have irr : ∀ n, Acc (Uses (defsOf tree)) n → n ≠ A := by
    intro n hn
    induction hn with
    | intro n _ ih =>
      rintro rfl
      exact ih A ⟨.obj [(props, ref A)], rfl, .obj _ (.head _ _ (.here _ ⟨rfl, by simp [A]⟩))⟩ rfl
  exact irr A this rfl

/-- Entries next to a reference are lost. -/
theorem C48_siblings_fails : ∃ (schema : List (Text × Json)) (k : Text) (v w : Json),
    schema.lookup props = some (.obj [(refKey, .str (defsPrefix ++ A)), (k, v)]) ∧
    inlineRefs 2 schema = .ok (.obj [(props, w)]) ∧ w = .atom 3 :=
  ⟨[(props, .obj [(refKey, .str (defsPrefix ++ A)), (B, .atom 7)]), (defsKey, .obj [(A, .atom 3)])], B, .atom 7,
    .atom 3, rfl, rfl, rfl⟩

/-- A property with the name `$defs` is lost, and one with the name `$ref` makes it raise. -/
theorem C48_property_fails :
    inlineRefs 0 [(props, .obj [(defsKey, .atom 1), (A, .atom 2)])] = .ok (.obj [(props, .obj [(A, .atom 2)])]) ∧
    inlineRefs 0 [(props, .obj [(refKey, .obj []), (A, .atom 2)])] = .error .attribute := ⟨rfl, rfl⟩

end Verif.Llm
