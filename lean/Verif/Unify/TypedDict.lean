/-!
# C80: unification of typed dictionaries

Model of `_unify_typeddict` and `_unify_mapping_typeddict` (`internals/unification.py` 421-504), of the cases of `unify` (262-299),
`_unify_typevar` (314-326) and `_unify_generic` (524-581) that they meet, of `_get_typeddict_hints` (393-418), and of
`canonicalize` on typed dictionaries (680-694).

Simplifications: types are type variables (without bounds), classes, `Mapping[K, V]` and `MutableMapping[K, V]`, and typed
dictionaries given by their fields, with the parameters of generic ones already substituted (but see `alias`). Recursive typed
dictionaries are treated apart (`Named`). Classes that are mappings without parameters, `Any`, unions and sequences are left out.
Running out of fuel and `TypeError` are both `none`.
-/

namespace Verif.Unify.TypedDict

mutual
/-- Types. -/
inductive Ty where
  | var (n : Nat)
  | con (c : Nat)
  /-- `MutableMapping[k, v]` if `m`, else `Mapping[k, v]`. -/
  | map (m : Bool) (k v : Ty)
  | td (fs : Fields)
deriving DecidableEq

/-- Fields of a typed dictionary, each with whether it is `NotRequired` and whether it is `ReadOnly`. -/
inductive Fields where
  | nil
  | cons (name : String) (opt ro : Bool) (ty : Ty) (rest : Fields)
deriving DecidableEq
end

/-- What is said of a field. -/
structure Entry where
  opt : Bool
  ro : Bool
  ty : Ty

/-- The field with a name. -/
def Fields.find (n : String) : Fields → Option Entry
  | .nil => none
  | .cons m opt ro ty rest => if m = n then some ⟨opt, ro, ty⟩ else rest.find n

/-- Classes: `le d c` if `d` is a subclass of `c`; `sup c` if the abstract class of mappings is a subclass of `c`. -/
structure Table where
  le : Nat → Nat → Bool
  sup : Nat → Bool
  canon : Nat → Nat
  str : Nat

mutual
/-- `canonicalize` (664-694): a typed dictionary whose fields are canonical is returned, else there is a new one, without
`ReadOnly`. -/
def canon (T : Table) : Ty → Ty
  | .var n => .var n
  | .con c => .con (T.canon c)
  | .map m k v => .map m (canon T k) (canon T v)
  | .td fs => if canonicals T fs then .td fs else .td (canons T fs)
termination_by structural t => t

/-- The fields of the new dictionary (685-694). -/
def canons (T : Table) : Fields → Fields
  | .nil => .nil
  | .cons n opt _ ty rest => .cons n opt false (canon T ty) (canons T rest)
termination_by structural fs => fs

/-- All field types are canonical (683). -/
def canonicals (T : Table) : Fields → Bool
  | .nil => true
  | .cons _ _ _ ty rest => decide (canon T ty = ty) && canonicals T rest
termination_by structural fs => fs
end

abbrev Subs := List (Nat × Ty)

abbrev Uni := Ty → Ty → Subs → Option Subs

def get (q : Subs) (v : Nat) : Option Ty := q.lookup v

/-- `{v: t, **q}`. -/
def add (v : Nat) (t : Ty) (q : Subs) : Subs :=
  match get q v with
  | some _ => q
  | none => (v, t) :: q

/-- Two rules of the code, which can be left out to say that a run does not use them. -/
structure Rules where
  /-- `NotRequired` fields of the pattern may be absent from the other dictionary (443-445). -/
  skip : Bool
  /-- Typed dictionaries are mappings from `str` (271-280). -/
  maps : Bool

/-- The rules of the code. -/
def code : Rules := ⟨true, true⟩

/-- The loop of `_unify_typeddict` (442-479) over the fields of the pattern. -/
def fieldsLoop (R : Rules) (U : Uni) (gs : Fields) : Fields → Subs → Option Subs
  | .nil, q => some q
  | .cons n opt ro ty rest, q =>
    match gs.find n with
    | none => if opt && R.skip then fieldsLoop R U gs rest q else none
    | some g =>
      if !opt && g.opt then none
      else if opt && !g.opt && !ro then none
      else
        match U ty g.ty q with
        | none => none
        | some q1 =>
          if ro then fieldsLoop R U gs rest q1
          else
            match U g.ty ty q1 with
            | none => none
            | some q2 => fieldsLoop R U gs rest q2

/-- The loop of `_unify_mapping_typeddict` (493-504) over the fields of the dictionary. -/
def mapLoop (U : Uni) (m : Bool) (x : Ty) : Fields → Subs → Option Subs
  | .nil, q => some q
  | .cons _ _ _ ty rest, q =>
    match U x ty q with
    | none => none
    | some q1 =>
      if m then
        match U ty x q1 with
        | none => none
        | some q2 => mapLoop U m x rest q2
      else mapLoop U m x rest q1

/-- `unify` on canonical types (268-299). -/
def unifyCanon (R : Rules) (T : Table) (U : Uni) (t s : Ty) (q : Subs) : Option Subs :=
  match t, s with
  | .td fs, .td gs => fieldsLoop R U gs fs q
  | .map m k x, .td gs =>
    if R.maps then
      match U k (.con T.str) q with
      | none => none
      | some q1 => mapLoop U m x gs q1
    else none
  | .var v, .var w => if v = w then some q else some (add v (.var w) q)
  | .var v, s => U ((get q v).getD s) s (add v s q)
  | t, .var v => U t ((get q v).getD t) (add v t q)
  | .map m k x, .map m' k' x' =>
    if m = m' ∧ k = k' ∧ x = x' then some q
    else if m = true ∧ m' = false then none
    else
      match U k k' q with
      | none => none
      | some q1 => U x x' q1
  | .con c, .con d => if c = d ∨ T.le d c = true then some q else none
  | .con c, .td _ => if T.sup c then some q else none
  | .con c, .map _ _ _ => if T.sup c then some q else none
  | .td _, .con _ => none
  | .td _, .map _ _ _ => none
  | .map _ _ _, .con _ => none

/-- `unify` (262-299) with fuel. -/
def unify (R : Rules) (T : Table) : Nat → Uni
  | 0, _, _, _ => none
  | n + 1, t, s, q =>
    if canon T t ≠ t ∨ canon T s ≠ s then unify R T n (canon T t) (canon T s) q
    else unifyCanon R T (unify R T n) t s q

mutual
/-- `substitute` with values without variables. -/
def inst (q : Subs) : Ty → Ty
  | .var v => (get q v).getD (.var v)
  | .con c => .con c
  | .map m k x => .map m (inst q k) (inst q x)
  | .td fs => .td (insts q fs)
termination_by structural t => t

def insts (q : Subs) : Fields → Fields
  | .nil => .nil
  | .cons n opt ro ty rest => .cons n opt ro (inst q ty) (insts q rest)
termination_by structural fs => fs
end

/-! ## Specification -/

/-- Values: instances of classes, and dictionaries with keys in `str`. -/
inductive V where
  | atom (c : Nat)
  | dict (kvs : List (String × V))

mutual
/-- `v` has type `t`. With `o` typed dictionaries may have further keys, as in the specification of typing. -/
def Has (T : Table) (o : Bool) : Ty → V → Prop
  | .var _, _ => False
  | .con c, .atom d => T.le d c = true
  | .con c, .dict _ => T.sup c = true
  | .map _ _ _, .atom _ => False
  | .map _ k x, .dict kvs => ∀ n y, kvs.lookup n = some y → Has T o k (.atom T.str) ∧ Has T o x y
  | .td _, .atom _ => False
  | .td fs, .dict kvs => HasF T o fs kvs ∧ (o = false → ∀ n, kvs.lookup n ≠ none → fs.find n = none → False)
termination_by structural t => t

/-- Fields that are required are there, and fields that are there have their types. -/
def HasF (T : Table) (o : Bool) : Fields → List (String × V) → Prop
  | .nil, _ => True
  | .cons n opt _ ty rest, kvs =>
    (kvs.lookup n = none → opt = true) ∧ (∀ x, kvs.lookup n = some x → Has T o ty x) ∧ HasF T o rest kvs
termination_by structural fs => fs
end

/-- Set or delete a key. -/
def put (kvs : List (String × V)) (n : String) : Option V → List (String × V)
  | some w => (n, w) :: kvs.filter (fun p => p.1 != n)
  | none => kvs.filter (fun p => p.1 != n)

/-- Set or delete the key at the end of a path. `none` for `KeyError`. -/
def edit : List String → V → Option V → Option V
  | [], _, _ => none
  | _ :: _, .atom _, _ => none
  | [n], .dict kvs, e => some (.dict (put kvs n e))
  | n :: m :: p, .dict kvs, e =>
    match kvs.lookup n with
    | none => none
    | some x => (edit (m :: p) x e).map fun y => .dict (put kvs n (some y))

/-- The type allows the edit: a field to be set is not `ReadOnly` and the value has its type; a field to be deleted is also
`NotRequired`. With `b` fields that are `ReadOnly` count too. -/
inductive Allowed (T : Table) (b : Bool) : Ty → List String → Option V → Prop
  | set {fs n g w} : fs.find n = some g → (g.ro = false ∨ b = true) → Has T true g.ty w → Allowed T b (.td fs) [n] (some w)
  | del {fs n g} : fs.find n = some g → (g.ro = false ∨ b = true) → g.opt = true → Allowed T b (.td fs) [n] none
  | into {fs n m p g e} : fs.find n = some g → Allowed T b g.ty (m :: p) e → Allowed T b (.td fs) (n :: m :: p) e

mutual
/-- Without type variables. -/
def Ground : Ty → Prop
  | .var _ => False
  | .con _ => True
  | .map _ k x => Ground k ∧ Ground x
  | .td fs => Grounds fs
termination_by structural t => t

def Grounds : Fields → Prop
  | .nil => True
  | .cons _ _ _ ty rest => Ground ty ∧ Grounds rest
termination_by structural fs => fs
end

mutual
/-- Fields of a dictionary have different names. -/
def Distinct : Ty → Prop
  | .var _ => True
  | .con _ => True
  | .map _ k x => Distinct k ∧ Distinct x
  | .td fs => Distincts fs
termination_by structural t => t

def Distincts : Fields → Prop
  | .nil => True
  | .cons n _ _ ty rest => rest.find n = none ∧ Distinct ty ∧ Distincts rest
termination_by structural fs => fs
end

/-- Values of substitutions have no variables. -/
def GroundSubs (q : Subs) : Prop := ∀ v b, get q v = some b → Ground b

/-- Subclasses form a preorder, and canonical classes have the same instances. -/
structure Table.Ok (T : Table) : Prop where
  refl : ∀ c, T.le c c = true
  trans : ∀ a b c, T.le a b = true → T.le b c = true → T.le a c = true
  sup : ∀ c d, T.le d c = true → T.sup d = true → T.sup c = true
  canon_le : ∀ c d, T.le d (T.canon c) = T.le d c
  canon_sup : ∀ c, T.sup (T.canon c) = T.sup c

/-! ## Proofs -/

/-- Bindings stay. -/
def Ext (q r : Subs) : Prop := ∀ v b, get q v = some b → get r v = some b

theorem Ext.refl (q : Subs) : Ext q q := fun _ _ h => h

theorem Ext.trans {p q r : Subs} (h : Ext p q) (k : Ext q r) : Ext p r := fun v b e => k v b (h v b e)

theorem get_add (v : Nat) (t : Ty) (q : Subs) : get (add v t q) v = some ((get q v).getD t) := by
  unfold add
  cases h : get q v with
  | some b => simp only [h, Option.getD_some]
  | none => simp [get]

theorem ext_add (v : Nat) (t : Ty) (q : Subs) : Ext q (add v t q) := by
  intro w b h
  unfold add
  cases hv : get q v with
  | some c => exact h
  | none =>
    simp only [get, List.lookup_cons]
    by_cases hw : w = v
    · subst hw; rw [h] at hv; cases hv
    · rw [beq_eq_false_iff_ne.mpr hw]; exact h

theorem ground_add {v : Nat} {t : Ty} {q : Subs} (hq : GroundSubs q) (ht : Ground t) : GroundSubs (add v t q) := by
  intro w b h
  unfold add at h
  cases hv : get q v with
  | some c => rw [hv] at h; exact hq w b h
  | none =>
    rw [hv] at h
    simp only [get, List.lookup_cons] at h
    by_cases hw : w = v
    · subst hw; rw [beq_self_eq_true] at h; cases h; exact ht
    · rw [beq_eq_false_iff_ne.mpr hw] at h; exact hq w b h

mutual
theorem inst_ground (q : Subs) : ∀ t, Ground t → inst q t = t
  | .var _, h => h.elim
  | .con _, _ => rfl
  | .map m k x, h => by rw [inst, inst_ground q k h.1, inst_ground q x h.2]
  | .td fs, h => by rw [inst, insts_ground q fs h]

theorem insts_ground (q : Subs) : ∀ fs, Grounds fs → insts q fs = fs
  | .nil, _ => rfl
  | .cons n o r ty rest, h => by rw [insts, inst_ground q ty h.1, insts_ground q rest h.2]
end

theorem find_insts (q : Subs) (n : String) : ∀ fs : Fields,
    (insts q fs).find n = (fs.find n).map fun g => ⟨g.opt, g.ro, inst q g.ty⟩
  | .nil => rfl
  | .cons m o r ty rest => by
    rw [insts, Fields.find, Fields.find]
    split
    · rfl
    · exact find_insts q n rest

theorem ground_find {n : String} : ∀ {fs : Fields} {g : Entry}, Grounds fs → fs.find n = some g → Ground g.ty
  | .cons m o r ty rest, g, h, e => by
    rw [Fields.find] at e
    split at e
    · cases e; exact h.1
    · exact ground_find h.2 e

mutual
theorem has_open {T : Table} {o : Bool} : ∀ (t : Ty) (v : V), Has T o t v → Has T true t v
  | .var _, _, h => h
  | .con _, .atom _, h => h
  | .con _, .dict _, h => h
  | .map _ _ _, .atom _, h => h
  | .map _ k x, .dict _, h => fun n y e => ⟨has_open k _ (h n y e).1, has_open x _ (h n y e).2⟩
  | .td _, .atom _, h => h
  | .td fs, .dict kvs, h => ⟨hasF_open fs kvs h.1, fun e => nomatch e⟩

theorem hasF_open {T : Table} {o : Bool} : ∀ (fs : Fields) (kvs : List (String × V)), HasF T o fs kvs → HasF T true fs kvs
  | .nil, _, h => h
  | .cons _ _ _ ty rest, kvs, h => ⟨h.1, fun x e => has_open ty x (h.2.1 x e), hasF_open rest kvs h.2.2⟩
end

theorem hasF_find {T : Table} {o : Bool} {n : String} {kvs : List (String × V)} : ∀ {fs : Fields} {g : Entry},
    HasF T o fs kvs → fs.find n = some g →
    (kvs.lookup n = none → g.opt = true) ∧ ∀ x, kvs.lookup n = some x → Has T o g.ty x
  | .cons m op r ty rest, g, h, e => by
    rw [Fields.find] at e
    split at e
    · next hm => subst hm; cases e; exact ⟨h.1, h.2.1⟩
    · exact hasF_find h.2.2 e

theorem find_canons (T : Table) (n : String) : ∀ fs : Fields,
    (canons T fs).find n = (fs.find n).map fun g => ⟨g.opt, false, canon T g.ty⟩
  | .nil => rfl
  | .cons m o r ty rest => by
    rw [canons, Fields.find, Fields.find]
    split
    · rfl
    · exact find_canons T n rest

mutual
theorem has_canon {T : Table} (H : T.Ok) (o : Bool) (q : Subs) : ∀ (t : Ty) (v : V),
    Has T o (inst q (canon T t)) v ↔ Has T o (inst q t) v
  | .var _, _ => Iff.rfl
  | .con c, .atom d => by
    show T.le d (T.canon c) = true ↔ T.le d c = true
    rw [H.canon_le]
  | .con c, .dict _ => by
    show T.sup (T.canon c) = true ↔ T.sup c = true
    rw [H.canon_sup]
  | .map _ _ _, .atom _ => Iff.rfl
  | .map _ k x, .dict kvs => by
    constructor
    · exact fun h n y e => ⟨(has_canon H o q k _).1 (h n y e).1, (has_canon H o q x _).1 (h n y e).2⟩
    · exact fun h n y e => ⟨(has_canon H o q k _).2 (h n y e).1, (has_canon H o q x _).2 (h n y e).2⟩
  | .td fs, .atom _ => by
    rw [canon]
    split <;> exact Iff.rfl
  | .td fs, .dict kvs => by
    rw [canon]
    split
    · exact Iff.rfl
    · have hf : ∀ n, (insts q (canons T fs)).find n = none ↔ (insts q fs).find n = none := by
        intro n
        rw [find_insts, find_insts, find_canons]
        cases fs.find n <;> simp
      constructor
      · exact fun h => ⟨(hasF_canon H o q fs kvs).1 h.1, fun e n h1 h2 => h.2 e n h1 ((hf n).2 h2)⟩
      · exact fun h => ⟨(hasF_canon H o q fs kvs).2 h.1, fun e n h1 h2 => h.2 e n h1 ((hf n).1 h2)⟩

theorem hasF_canon {T : Table} (H : T.Ok) (o : Bool) (q : Subs) : ∀ (fs : Fields) (kvs : List (String × V)),
    HasF T o (insts q (canons T fs)) kvs ↔ HasF T o (insts q fs) kvs
  | .nil, _ => Iff.rfl
  | .cons n op r ty rest, kvs => by
    constructor
    · exact fun h => ⟨h.1, fun x e => (has_canon H o q ty x).1 (h.2.1 x e), (hasF_canon H o q rest kvs).1 h.2.2⟩
    · exact fun h => ⟨h.1, fun x e => (has_canon H o q ty x).2 (h.2.1 x e), (hasF_canon H o q rest kvs).2 h.2.2⟩
end

mutual
theorem ground_canon (T : Table) : ∀ t, Ground t → Ground (canon T t)
  | .var _, h => h
  | .con _, _ => trivial
  | .map _ k x, h => ⟨ground_canon T k h.1, ground_canon T x h.2⟩
  | .td fs, h => by
    rw [canon]
    split
    · exact h
    · exact grounds_canon T fs h

theorem grounds_canon (T : Table) : ∀ fs, Grounds fs → Grounds (canons T fs)
  | .nil, _ => trivial
  | .cons _ _ _ ty rest, h => ⟨ground_canon T ty h.1, grounds_canon T rest h.2⟩
end

theorem not_allowed_nil {T : Table} {b : Bool} {t : Ty} {e : Option V} : ¬ Allowed T b t [] e := fun h => by cases h

/-- Canonical types allow at least as much. -/
theorem allowed_to_canon {T : Table} (H : T.Ok) {q : Subs} {b : Bool} : ∀ {p : List String} {t : Ty} {e : Option V},
    Allowed T b (inst q t) p e → Allowed T b (inst q (canon T t)) p e := by
  intro p
  induction p with
  | nil => intro t e h; exact (not_allowed_nil h).elim
  | cons n p ih =>
    intro t e h
    cases t with
    | var v => exact h
    | con c => cases h
    | map m k x => cases h
    | td fs =>
      rw [canon]
      split
      · exact h
      · rw [inst] at h ⊢
        have hf : ∀ g, (insts q fs).find n = some g → ∃ g0, fs.find n = some g0 ∧ g = ⟨g0.opt, g0.ro, inst q g0.ty⟩ ∧
            (insts q (canons T fs)).find n = some ⟨g0.opt, false, inst q (canon T g0.ty)⟩ := by
          intro g hg
          rw [find_insts] at hg
          cases hg0 : fs.find n with
          | none => rw [hg0] at hg; cases hg
          | some g0 =>
            rw [hg0] at hg
            cases hg
            exact ⟨g0, rfl, rfl, by rw [find_insts, find_canons, hg0]; rfl⟩
        cases h with
        | set hg _ hw =>
          obtain ⟨g0, _, rfl, h2⟩ := hf _ hg
          exact .set h2 (.inl rfl) ((has_canon H true q g0.ty _).2 hw)
        | del hg _ ho =>
          obtain ⟨g0, _, rfl, h2⟩ := hf _ hg
          exact .del h2 (.inl rfl) ho
        | into hg hin =>
          obtain ⟨g0, _, rfl, h2⟩ := hf _ hg
          exact .into h2 (ih hin)

/-- If `ReadOnly` is ignored they allow the same. -/
theorem allowed_of_canon {T : Table} (H : T.Ok) {q : Subs} : ∀ {p : List String} {t : Ty} {e : Option V},
    Allowed T true (inst q (canon T t)) p e → Allowed T true (inst q t) p e := by
  intro p
  induction p with
  | nil => intro t e h; exact (not_allowed_nil h).elim
  | cons n p ih =>
    intro t e h
    cases t with
    | var v => exact h
    | con c => cases h
    | map m k x => cases h
    | td fs =>
      rw [canon] at h
      split at h
      · exact h
      · rw [inst] at h ⊢
        have hf : ∀ g, (insts q (canons T fs)).find n = some g → ∃ g0 : Entry, g = ⟨g0.opt, false, inst q (canon T g0.ty)⟩ ∧
            (insts q fs).find n = some ⟨g0.opt, g0.ro, inst q g0.ty⟩ := by
          intro g hg
          rw [find_insts, find_canons] at hg
          cases hg0 : fs.find n with
          | none => rw [hg0] at hg; cases hg
          | some g0 =>
            rw [hg0] at hg
            cases hg
            exact ⟨g0, rfl, by rw [find_insts, hg0]; rfl⟩
        cases h with
        | set hg _ hw =>
          obtain ⟨g0, rfl, h2⟩ := hf _ hg
          exact .set h2 (.inr rfl) ((has_canon H true q g0.ty _).1 hw)
        | del hg _ ho =>
          obtain ⟨g0, rfl, h2⟩ := hf _ hg
          exact .del h2 (.inr rfl) ho
        | into hg hin =>
          obtain ⟨g0, rfl, h2⟩ := hf _ hg
          exact .into h2 (ih hin)

theorem Allowed.weaken {T : Table} {t : Ty} {p : List String} {e : Option V} (h : Allowed T false t p e) :
    Allowed T true t p e := by
  induction h with
  | set hg _ hw => exact .set hg (.inr rfl) hw
  | del hg _ ho => exact .del hg (.inr rfl) ho
  | into hg _ ih => exact .into hg ih

/-- What is shown of a unifier: values of `s` are values of `t`, and if `s` may have further keys, then what `t` allows is
allowed by `s` up to `ReadOnly`. -/
def Sound (T : Table) (o : Bool) (r : Subs) (t s : Ty) : Prop :=
  ∀ r', Ext r r' → (∀ v, Has T o (inst r' s) v → Has T true (inst r' t) v) ∧
    (o = true → ∀ p e, Allowed T false (inst r' t) p e → Allowed T true (inst r' s) p e)

def Spec (T : Table) (o : Bool) (U : Uni) : Prop :=
  ∀ t s q r, (Ground t ∨ Ground s) → GroundSubs q → U t s q = some r → GroundSubs r ∧ Ext q r ∧ Sound T o r t s

theorem Sound.ext {T : Table} {o : Bool} {r r' : Subs} {t s : Ty} (h : Sound T o r t s) (e : Ext r r') : Sound T o r' t s :=
  fun _ k => h _ (e.trans k)

/-- What the loop says of a field of the pattern. -/
def FieldSound (R : Rules) (T : Table) (o : Bool) (r : Subs) (gs : Fields) (n : String) (f : Entry) : Prop :=
  (gs.find n = none ∧ f.opt = true ∧ R.skip = true) ∨
  ∃ g, gs.find n = some g ∧ (g.opt = true → f.opt = true) ∧ (f.opt = true → f.ro = false → g.opt = true) ∧
    Sound T o r f.ty g.ty ∧ (f.ro = false → Sound T o r g.ty f.ty)

theorem FieldSound.ext {R : Rules} {T : Table} {o : Bool} {r r' : Subs} {gs : Fields} {n : String} {f : Entry}
    (h : FieldSound R T o r gs n f) (e : Ext r r') : FieldSound R T o r' gs n f := by
  rcases h with h | ⟨g, h1, h2, h3, h4, h5⟩
  · exact .inl h
  · exact .inr ⟨g, h1, h2, h3, h4.ext e, fun k => (h5 k).ext e⟩

/-- All entries, with their names. -/
inductive Entries : Fields → String → Entry → Prop
  | head {n o r ty rest} : Entries (.cons n o r ty rest) n ⟨o, r, ty⟩
  | tail {m o r ty rest n f} : Entries rest n f → Entries (.cons m o r ty rest) n f

theorem entries_find {n : String} : ∀ {fs : Fields} {f : Entry}, fs.find n = some f → Entries fs n f
  | .cons m o r ty rest, f, h => by
    rw [Fields.find] at h
    split at h
    · next hm => subst hm; cases h; exact .head
    · exact .tail (entries_find h)

theorem fieldsLoop_sound {R : Rules} {T : Table} {o : Bool} {U : Uni} (hU : Spec T o U) {gs : Fields} :
    ∀ (fs : Fields) (q r : Subs), (Grounds fs ∨ Grounds gs) → GroundSubs q → fieldsLoop R U gs fs q = some r →
      GroundSubs r ∧ Ext q r ∧ ∀ n f, Entries fs n f → FieldSound R T o r gs n f
  | .nil, q, r, _, hq, h => by
    cases h
    exact ⟨hq, .refl q, fun n f e => nomatch e⟩
  | .cons n opt ro ty rest, q, r, hg, hq, h => by
    have hg' : Grounds rest ∨ Grounds gs := hg.imp (fun k => k.2) id
    rw [fieldsLoop] at h
    split at h
    · next hn =>
      split at h
      · next hs =>
        rw [Bool.and_eq_true] at hs
        obtain ⟨h1, h2, h3⟩ := fieldsLoop_sound hU rest q r hg' hq h
        refine ⟨h1, h2, ?_⟩
        intro m f e
        cases e with
        | head => exact .inl ⟨hn, hs.1, hs.2⟩
        | tail e => exact h3 m f e
      · cases h
    · next g hn =>
      split at h
      · cases h
      · next c1 =>
        split at h
        · cases h
        · next c2 =>
          have hgr : Ground ty ∨ Ground g.ty := hg.imp (fun k => k.1) (fun k => ground_find k hn)
          have d1 : g.opt = true → opt = true := by
            intro k
            cases opt with
            | true => rfl
            | false => rw [k] at c1; exact absurd rfl c1
          have d2 : opt = true → ro = false → g.opt = true := by
            intro k1 k2
            cases hgo : g.opt with
            | true => rfl
            | false => rw [k1, k2, hgo] at c2; exact absurd rfl c2
          split at h
          · cases h
          · next q1 hu1 =>
            obtain ⟨a1, a2, a3⟩ := hU _ _ _ _ hgr hq hu1
            split at h
            · next hro =>
              obtain ⟨h1, h2, h3⟩ := fieldsLoop_sound hU rest q1 r hg' a1 h
              refine ⟨h1, a2.trans h2, ?_⟩
              intro m f e
              cases e with
              | head => exact .inr ⟨g, hn, d1, d2, a3.ext h2, fun k => absurd (hro.symm.trans k) (by decide)⟩
              | tail e => exact h3 m f e
            · split at h
              · cases h
              · next q2 hu2 =>
                obtain ⟨b1, b2, b3⟩ := hU _ _ _ _ hgr.symm a1 hu2
                obtain ⟨h1, h2, h3⟩ := fieldsLoop_sound hU rest q2 r hg' b1 h
                refine ⟨h1, a2.trans (b2.trans h2), ?_⟩
                intro m f e
                cases e with
                | head => exact .inr ⟨g, hn, d1, d2, a3.ext (b2.trans h2), fun _ => b3.ext h2⟩
                | tail e => exact h3 m f e

theorem mapLoop_sound {T : Table} {o : Bool} {U : Uni} (hU : Spec T o U) {m : Bool} {x : Ty} :
    ∀ (gs : Fields) (q r : Subs), (Ground x ∨ Grounds gs) → GroundSubs q → mapLoop U m x gs q = some r →
      GroundSubs r ∧ Ext q r ∧ ∀ n g, Entries gs n g → Sound T o r x g.ty
  | .nil, q, r, _, hq, h => by
    cases h
    exact ⟨hq, .refl q, fun n g e => nomatch e⟩
  | .cons n opt ro ty rest, q, r, hg, hq, h => by
    have hg' : Ground x ∨ Grounds rest := hg.imp id (fun k => k.2)
    have hgr : Ground x ∨ Ground ty := hg.imp id (fun k => k.1)
    rw [mapLoop] at h
    split at h
    · cases h
    · next q1 hu1 =>
      obtain ⟨a1, a2, a3⟩ := hU _ _ _ _ hgr hq hu1
      split at h
      · split at h
        · cases h
        · next q2 hu2 =>
          obtain ⟨b1, b2, _⟩ := hU _ _ _ _ hgr.symm a1 hu2
          obtain ⟨h1, h2, h3⟩ := mapLoop_sound hU rest q2 r hg' b1 h
          refine ⟨h1, a2.trans (b2.trans h2), ?_⟩
          intro k g e
          cases e with
          | head => exact a3.ext (b2.trans h2)
          | tail e => exact h3 k g e
      · obtain ⟨h1, h2, h3⟩ := mapLoop_sound hU rest q1 r hg' a1 h
        refine ⟨h1, a2.trans h2, ?_⟩
        intro k g e
        cases e with
        | head => exact a3.ext h2
        | tail e => exact h3 k g e

theorem hasF_of {T : Table} {o : Bool} {q : Subs} {kvs : List (String × V)} : ∀ (fs : Fields),
    (∀ n f, Entries fs n f → (kvs.lookup n = none → f.opt = true) ∧ ∀ x, kvs.lookup n = some x → Has T o (inst q f.ty) x) →
    HasF T o (insts q fs) kvs
  | .nil, _ => trivial
  | .cons n _ _ _ rest, h =>
    ⟨(h n _ .head).1, (h n _ .head).2, hasF_of rest fun m f e => h m f (.tail e)⟩

theorem sound_self (T : Table) (o : Bool) (r : Subs) (t : Ty) : Sound T o r t t :=
  fun _ _ => ⟨fun v h => has_open _ v h, fun _ _ _ h => h.weaken⟩

theorem not_allowed_con {T : Table} {b : Bool} {c : Nat} {p : List String} {e : Option V} : ¬ Allowed T b (.con c) p e :=
  fun h => by cases h

theorem not_allowed_map {T : Table} {b m : Bool} {k x : Ty} {p : List String} {e : Option V} : ¬ Allowed T b (.map m k x) p e :=
  fun h => by cases h

theorem td_sound {R : Rules} {T : Table} {o : Bool} (ho : o = true → R.skip = false) {r : Subs} {fs gs : Fields}
    (h : ∀ n f, Entries fs n f → FieldSound R T o r gs n f) : Sound T o r (.td fs) (.td gs) := by
  intro r' hr
  constructor
  · intro v hv
    rw [inst] at hv ⊢
    cases v with
    | atom c => exact hv
    | dict kvs =>
      refine ⟨hasF_of fs ?_, fun e => nomatch e⟩
      intro n f e
      rcases h n f e with ⟨h1, h2, h3⟩ | ⟨g, h1, h2, _, h4, _⟩
      · cases o with
        | true => exact absurd (h3.symm.trans (ho rfl)) (by decide)
        | false =>
          have hnone : kvs.lookup n = none := by
            cases hl : kvs.lookup n with
            | none => rfl
            | some x => exact (hv.2 rfl n (by rw [hl]; exact fun k => nomatch k) (by rw [find_insts, h1]; rfl)).elim
          exact ⟨fun _ => h2, fun x hx => absurd (hnone.symm.trans hx) (fun k => nomatch k)⟩
      · have hf : (insts r' gs).find n = some ⟨g.opt, g.ro, inst r' g.ty⟩ := by rw [find_insts, h1]; rfl
        have := hasF_find hv.1 hf
        exact ⟨fun k => h2 (this.1 k), fun x hx => (h4 r' hr).1 x (this.2 x hx)⟩
  · intro hot p e ha
    rw [inst] at ha ⊢
    have key : ∀ n f', (insts r' fs).find n = some f' → ∃ f g : Entry, f' = ⟨f.opt, f.ro, inst r' f.ty⟩ ∧
        (insts r' gs).find n = some ⟨g.opt, g.ro, inst r' g.ty⟩ ∧ (f.opt = true → f.ro = false → g.opt = true) ∧
        Sound T o r f.ty g.ty ∧ (f.ro = false → Sound T o r g.ty f.ty) := by
      intro n f' hf'
      rw [find_insts] at hf'
      cases hf : fs.find n with
      | none => rw [hf] at hf'; cases hf'
      | some f =>
        rw [hf] at hf'
        cases hf'
        rcases h n f (entries_find hf) with ⟨_, _, h3⟩ | ⟨g, h1, _, h3, h4, h5⟩
        · exact absurd (h3.symm.trans (ho hot)) (by decide)
        · exact ⟨f, g, rfl, by rw [find_insts, h1]; rfl, h3, h4, h5⟩
    cases ha with
    | set hg hro hw =>
      obtain ⟨f, g, rfl, k1, k2, k3, k4⟩ := key _ _ hg
      have hro : f.ro = false := hro.resolve_right (by decide)
      subst hot
      exact .set k1 (.inr rfl) ((k4 hro r' hr).1 _ hw)
    | del hg hro hopt =>
      obtain ⟨f, g, rfl, k1, k2, k3, k4⟩ := key _ _ hg
      exact .del k1 (.inr rfl) (k2 hopt (hro.resolve_right (by decide)))
    | into hg hin =>
      obtain ⟨f, g, rfl, k1, k2, k3, k4⟩ := key _ _ hg
      exact .into k1 ((k3 r' hr).2 hot _ _ hin)

theorem unifyCanon_spec {R : Rules} {T : Table} (H : T.Ok) {o : Bool} (ho : o = true → R.skip = false ∧ R.maps = false) {U : Uni}
    (hU : Spec T o U) : Spec T o (unifyCanon R T U) := by
  intro t s q r hg hq h
  have hvar : ∀ v s, Ground s → (U ((get q v).getD s) s (add v s q)) = some r →
      GroundSubs r ∧ Ext q r ∧ Sound T o r (.var v) s := by
    intro v s hs h
    obtain ⟨a1, a2, a3⟩ := hU _ _ _ _ (.inr hs) (ground_add hq hs) h
    refine ⟨a1, (ext_add v s q).trans a2, ?_⟩
    intro r' hr
    have hb : get r' v = some ((get q v).getD s) := hr _ _ (a2 _ _ (get_add v s q))
    have hgb : Ground ((get q v).getD s) := by
      cases hv : get q v with
      | none => exact hs
      | some b => exact hq v b hv
    have := a3 r' hr
    rw [inst_ground r' _ hgb] at this
    rw [inst, hb]
    exact this
  have hvar' : ∀ v t, Ground t → (U t ((get q v).getD t) (add v t q)) = some r →
      GroundSubs r ∧ Ext q r ∧ Sound T o r t (.var v) := by
    intro v t ht h
    obtain ⟨a1, a2, a3⟩ := hU _ _ _ _ (.inl ht) (ground_add hq ht) h
    refine ⟨a1, (ext_add v t q).trans a2, ?_⟩
    intro r' hr
    have hb : get r' v = some ((get q v).getD t) := hr _ _ (a2 _ _ (get_add v t q))
    have hgb : Ground ((get q v).getD t) := by
      cases hv : get q v with
      | none => exact ht
      | some b => exact hq v b hv
    have := a3 r' hr
    rw [inst_ground r' _ hgb] at this
    show (∀ u, Has T o (inst r' (.var v)) u → _) ∧ (_ → ∀ p e, _ → Allowed T true (inst r' (.var v)) p e)
    rw [inst, hb]
    exact this
  cases t with
  | var v =>
    cases s with
    | var w => exact (hg.elim id id).elim
    | con c => exact hvar v _ (hg.resolve_left id) h
    | map m k x => exact hvar v _ (hg.resolve_left id) h
    | td gs => exact hvar v _ (hg.resolve_left id) h
  | con c =>
    cases s with
    | var w => exact hvar' w _ (hg.resolve_right id) h
    | con d =>
      simp only [unifyCanon] at h
      split at h
      · next hle =>
        cases h
        have hle : T.le d c = true := hle.elim (fun e => e ▸ H.refl c) id
        refine ⟨hq, .refl q, fun r' _ => ⟨?_, fun _ p e ha => absurd ha not_allowed_con⟩⟩
        intro v hv
        cases v with
        | atom e => exact H.trans e d c hv hle
        | dict kvs => exact H.sup c d hle hv
      · cases h
    | map m k x =>
      simp only [unifyCanon] at h
      split at h
      · next hs =>
        cases h
        refine ⟨hq, .refl q, fun r' _ => ⟨?_, fun _ p e ha => absurd ha not_allowed_con⟩⟩
        intro v hv
        cases v with
        | atom e => exact hv.elim
        | dict kvs => exact hs
      · cases h
    | td gs =>
      simp only [unifyCanon] at h
      split at h
      · next hs =>
        cases h
        refine ⟨hq, .refl q, fun r' _ => ⟨?_, fun _ p e ha => absurd ha not_allowed_con⟩⟩
        intro v hv
        cases v with
        | atom e => exact hv.elim
        | dict kvs => exact hs
      · cases h
  | map m k x =>
    cases s with
    | var w => exact hvar' w _ (hg.resolve_right id) h
    | con d => cases h
    | map m' k' x' =>
      simp only [unifyCanon] at h
      split at h
      · next he =>
        obtain ⟨rfl, rfl, rfl⟩ := he
        cases h
        exact ⟨hq, .refl q, sound_self T o q _⟩
      split at h
      · cases h
      · split at h
        · cases h
        · next q1 hu =>
          obtain ⟨a1, a2, a3⟩ := hU _ _ _ _ (hg.imp (fun g => g.1) (fun g => g.1)) hq hu
          obtain ⟨b1, b2, b3⟩ := hU _ _ _ _ (hg.imp (fun g => g.2) (fun g => g.2)) a1 h
          refine ⟨b1, a2.trans b2, fun r' hr => ⟨?_, fun _ p e ha => absurd ha not_allowed_map⟩⟩
          intro v hv
          cases v with
          | atom e => exact hv
          | dict kvs =>
            exact fun n y e => ⟨(a3 r' (b2.trans hr)).1 _ (hv n y e).1, (b3 r' hr).1 _ (hv n y e).2⟩
    | td gs =>
      simp only [unifyCanon] at h
      split at h
      · next hm =>
        split at h
        · cases h
        · next q1 hu =>
          have hof : o = false := by
            cases o with
            | false => rfl
            | true => exact absurd (hm.symm.trans (ho rfl).2) (by decide)
          subst hof
          obtain ⟨a1, a2, a3⟩ := hU k (.con T.str) q q1 (.inr (by rw [Ground]; trivial)) hq hu
          obtain ⟨b1, b2, b3⟩ := mapLoop_sound hU gs q1 r (hg.imp (fun g => g.2) id) a1 h
          refine ⟨b1, a2.trans b2, fun r' hr => ⟨?_, fun _ p e ha => absurd ha not_allowed_map⟩⟩
          intro v hv
          cases v with
          | atom e => exact hv
          | dict kvs =>
            intro n y e
            refine ⟨(a3 r' (b2.trans hr)).1 _ (H.refl T.str), ?_⟩
            cases hf : gs.find n with
            | none => exact (hv.2 rfl n (by rw [e]; exact fun k => nomatch k) (by rw [find_insts, hf]; rfl)).elim
            | some g =>
              have hf' : (insts r' gs).find n = some ⟨g.opt, g.ro, inst r' g.ty⟩ := by rw [find_insts, hf]; rfl
              exact (b3 n g (entries_find hf) r' hr).1 _ ((hasF_find hv.1 hf').2 y e)
      · cases h
  | td fs =>
    cases s with
    | var w => exact hvar' w _ (hg.resolve_right id) h
    | con d => cases h
    | map m k x => cases h
    | td gs =>
      obtain ⟨h1, h2, h3⟩ := fieldsLoop_sound hU fs q r hg hq h
      exact ⟨h1, h2, td_sound (fun k => (ho k).1) h3⟩

theorem unify_spec {R : Rules} {T : Table} (H : T.Ok) {o : Bool} (ho : o = true → R.skip = false ∧ R.maps = false) :
    ∀ n, Spec T o (unify R T n)
  | 0 => fun _ _ _ _ _ _ h => by cases h
  | n + 1 => by
    intro t s q r hg hq h
    rw [unify] at h
    split at h
    · obtain ⟨h1, h2, h3⟩ := unify_spec H ho n _ _ _ _ (hg.imp (ground_canon T t) (ground_canon T s)) hq h
      refine ⟨h1, h2, fun r' hr => ⟨?_, ?_⟩⟩
      · intro v hv
        exact (has_canon H true r' t v).1 ((h3 r' hr).1 v ((has_canon H o r' s v).2 hv))
      · intro k p e ha
        exact allowed_of_canon H ((h3 r' hr).2 k p e (allowed_to_canon H ha))
    · exact unifyCanon_spec H ho (unify_spec H ho n) t s q r hg hq h

theorem fieldsLoop_code {R : Rules} {U W : Uni} (hU : ∀ t s q r, U t s q = some r → W t s q = some r) {gs : Fields} :
    ∀ (fs : Fields) (q r : Subs), fieldsLoop R U gs fs q = some r → fieldsLoop code W gs fs q = some r
  | .nil, _, _, h => h
  | .cons n opt ro ty rest, q, r, h => by
    rw [fieldsLoop] at h ⊢
    split at h
    · next hn =>
      split at h
      · next hs =>
        rw [Bool.and_eq_true] at hs
        simp only [hs.1, code, Bool.and_self, if_true]
        exact fieldsLoop_code hU rest q r h
      · cases h
    · next g hn =>
      split at h
      · cases h
      · next c1 =>
        split at h
        · cases h
        · next c2 =>
          simp only [if_neg c1, if_neg c2]
          split at h
          · cases h
          · next q1 hu1 =>
            rw [hU _ _ _ _ hu1]
            simp only
            split at h
            · next hro => rw [if_pos hro]; exact fieldsLoop_code hU rest q1 r h
            · next hro =>
              rw [if_neg hro]
              split at h
              · cases h
              · next q2 hu2 =>
                rw [hU _ _ _ _ hu2]
                exact fieldsLoop_code hU rest q2 r h

theorem mapLoop_code {U W : Uni} (hU : ∀ t s q r, U t s q = some r → W t s q = some r) {m : Bool} {x : Ty} :
    ∀ (gs : Fields) (q r : Subs), mapLoop U m x gs q = some r → mapLoop W m x gs q = some r
  | .nil, _, _, h => h
  | .cons n opt ro ty rest, q, r, h => by
    rw [mapLoop] at h ⊢
    split at h
    · cases h
    · next q1 hu1 =>
      rw [hU _ _ _ _ hu1]
      simp only
      split at h
      · next hm =>
        rw [if_pos hm]
        split at h
        · cases h
        · next q2 hu2 =>
          rw [hU _ _ _ _ hu2]
          exact mapLoop_code hU rest q2 r h
      · next hm =>
        rw [if_neg hm]
        exact mapLoop_code hU rest q1 r h

/-- A run that leaves rules out is a run of the code. -/
theorem run_code {R : Rules} {T : Table} : ∀ n t s q r, unify R T n t s q = some r → unify code T n t s q = some r
  | 0, _, _, _, _, h => by cases h
  | n + 1, t, s, q, r, h => by
    have ih := run_code (R := R) (T := T) n
    rw [unify] at h ⊢
    split at h
    · next hc => rw [if_pos hc]; exact ih _ _ _ _ h
    · next hc =>
      rw [if_neg hc]
      cases t with
      | var v =>
        cases s with
        | var w => exact h
        | con c => exact ih _ _ _ _ h
        | map m k x => exact ih _ _ _ _ h
        | td gs => exact ih _ _ _ _ h
      | con c =>
        cases s with
        | var w => exact ih _ _ _ _ h
        | con d => exact h
        | map m k x => exact h
        | td gs => exact h
      | map m k x =>
        cases s with
        | var w => exact ih _ _ _ _ h
        | con d => exact h
        | map m' k' x' =>
          simp only [unifyCanon] at h ⊢
          split at h
          · next he => rw [if_pos he]; exact h
          · next he =>
            rw [if_neg he]
            split at h
            · cases h
            · next hm =>
              rw [if_neg hm]
              split at h
              · cases h
              · next q1 hu =>
                rw [ih _ _ _ _ hu]
                exact ih _ _ _ _ h
        | td gs =>
          simp only [unifyCanon] at h ⊢
          split at h
          · split at h
            · cases h
            · next q1 hu =>
              rw [ih _ _ _ _ hu]
              exact mapLoop_code ih gs q1 r h
          · cases h
      | td fs =>
        cases s with
        | var w => exact ih _ _ _ _ h
        | con d => cases h
        | map m k x => cases h
        | td gs => exact fieldsLoop_code ih fs q r h

theorem lookup_filter {n m : String} (kvs : List (String × V)) :
    (kvs.filter fun p => p.1 != n).lookup m = if m = n then none else kvs.lookup m := by
  induction kvs with
  | nil => split <;> rfl
  | cons p kvs ih =>
    obtain ⟨k, x⟩ := p
    rw [List.filter_cons]
    by_cases hk : k = n
    · subst hk
      simp only [bne_self_eq_false, Bool.false_eq_true, if_false, ih, List.lookup_cons]
      by_cases hm : m = k
      · rw [if_pos hm, if_pos hm]
      · rw [if_neg hm, if_neg hm, beq_eq_false_iff_ne.mpr hm]
    · simp only [bne_iff_ne.mpr hk, if_true, List.lookup_cons, ih]
      by_cases hm : m = k
      · subst hm
        simp only [if_neg hk, beq_self_eq_true]
      · rw [beq_eq_false_iff_ne.mpr hm]

theorem lookup_put (kvs : List (String × V)) (n m : String) (e : Option V) :
    (put kvs n e).lookup m = if m = n then e else kvs.lookup m := by
  cases e with
  | none => rw [put, lookup_filter]
  | some w =>
    rw [put, List.lookup_cons, lookup_filter]
    by_cases hm : m = n
    · simp only [hm, beq_self_eq_true, if_true]
    · rw [if_neg hm, beq_eq_false_iff_ne.mpr hm, if_neg hm]

theorem hasF_put {T : Table} {kvs : List (String × V)} {n : String} {e : Option V} : ∀ (fs : Fields), Distincts fs →
    HasF T true fs kvs → (∀ g, fs.find n = some g → (e = none → g.opt = true) ∧ ∀ w, e = some w → Has T true g.ty w) →
    HasF T true fs (put kvs n e)
  | .nil, _, _, _ => trivial
  | .cons m opt ro ty rest, hd, h, hg => by
    refine ⟨?_, ?_, ?_⟩
    · rw [lookup_put]
      by_cases hm : m = n
      · rw [if_pos hm]
        exact (hg ⟨opt, ro, ty⟩ (by rw [Fields.find, if_pos hm])).1
      · rw [if_neg hm]; exact h.1
    · rw [lookup_put]
      by_cases hm : m = n
      · rw [if_pos hm]
        exact (hg ⟨opt, ro, ty⟩ (by rw [Fields.find, if_pos hm])).2
      · rw [if_neg hm]; exact h.2.1
    · refine hasF_put rest hd.2.2 h.2.2 ?_
      intro g hr
      have hm : m ≠ n := fun k => by rw [← k, hd.1] at hr; cases hr
      exact hg g (by rw [Fields.find, if_neg hm]; exact hr)

theorem distinct_find {n : String} : ∀ {fs : Fields} {g : Entry}, Distincts fs → fs.find n = some g → Distinct g.ty
  | .cons m o r ty rest, g, h, e => by
    rw [Fields.find] at e
    split at e
    · cases e; exact h.2.1
    · exact distinct_find h.2.2 e

/-- Edits that a type allows keep the type. -/
theorem allowed_keeps {T : Table} {t : Ty} {p : List String} {e : Option V} (h : Allowed T true t p e) :
    Distinct t → ∀ v v', Has T true t v → edit p v e = some v' → Has T true t v' := by
  induction h with
  | @set fs n g w hg _ hw =>
    intro hd v v' hv hv'
    cases v with
    | atom c => cases hv'
    | dict kvs =>
      cases hv'
      refine ⟨hasF_put fs hd hv.1 ?_, fun k => (nomatch k)⟩
      intro g' hg'
      rw [hg] at hg'
      cases hg'
      exact ⟨fun k => (nomatch k), fun w' k => by cases k; exact hw⟩
  | @del fs n g hg _ ho =>
    intro hd v v' hv hv'
    cases v with
    | atom c => cases hv'
    | dict kvs =>
      cases hv'
      refine ⟨hasF_put fs hd hv.1 ?_, fun k => (nomatch k)⟩
      intro g' hg'
      rw [hg] at hg'
      cases hg'
      exact ⟨fun _ => ho, fun w' k => (nomatch k)⟩
  | @into fs n m p g e hg _ ih =>
    intro hd v v' hv hv'
    cases v with
    | atom c => cases hv'
    | dict kvs =>
      rw [edit] at hv'
      split at hv'
      · cases hv'
      · next x hx =>
        cases hy : edit (m :: p) x e with
        | none => rw [hy] at hv'; cases hv'
        | some y =>
          rw [hy] at hv'
          cases hv'
          have hyt := ih (distinct_find hd hg) x y ((hasF_find hv.1 hg).2 x hx) hy
          refine ⟨hasF_put fs hd hv.1 ?_, fun k => (nomatch k)⟩
          intro g' hg'
          rw [hg] at hg'
          cases hg'
          exact ⟨fun k => (nomatch k), fun w' k => by cases k; exact hyt⟩

/-! ## Theorems -/

/-- If unification succeeds, then values of the second type without further keys have the first type. -/
theorem C80_read_partial {T : Table} (H : T.Ok) {n : Nat} {t s : Ty} {q r : Subs} (hs : Ground s) (hq : GroundSubs q)
    (h : unify code T n t s q = some r) (v : V) (hv : Has T false s v) : Has T true (inst r t) v := by
  obtain ⟨_, _, h3⟩ := unify_spec H (o := false) (fun k => (nomatch k)) n t s q r (.inr hs) hq h
  exact (h3 r (.refl r)).1 v (by rw [inst_ground r s hs]; exact hv)

/-- If unification succeeds and no field was skipped and no dictionary taken for a mapping, then values of the second type, with
or without further keys, have the first type, and keep both types when they are changed at any depth in ways that the first
type allows. -/
theorem C80_edit_partial {R : Rules} {T : Table} (H : T.Ok) (h1 : R.skip = false) (h2 : R.maps = false) {n : Nat} {t s : Ty}
    {q r : Subs} (hs : Ground s) (hd : Distinct s) (hq : GroundSubs q) (h : unify R T n t s q = some r) :
    unify code T n t s q = some r ∧ ∀ v, Has T true s v → Has T true (inst r t) v ∧
      ∀ p e v', Allowed T false (inst r t) p e → edit p v e = some v' → Has T true s v' ∧ Has T true (inst r t) v' := by
  obtain ⟨_, _, h3⟩ := unify_spec H (o := true) (fun _ => ⟨h1, h2⟩) n t s q r (.inr hs) hq h
  have hr := h3 r (.refl r)
  rw [inst_ground r s hs] at hr
  refine ⟨run_code n t s q r h, fun v hv => ⟨hr.1 v hv, ?_⟩⟩
  intro p e v' ha he
  have := allowed_keeps (hr.2 rfl p e ha) hd v v' hv he
  exact ⟨this, hr.1 v' this⟩

mutual
theorem canon_idem {T : Table} (hT : ∀ c, T.canon (T.canon c) = T.canon c) : ∀ t, canon T (canon T t) = canon T t
  | .var _ => rfl
  | .con c => by rw [canon, canon, hT]
  | .map m k x => by rw [canon, canon, canon_idem hT k, canon_idem hT x]
  | .td fs => by
    by_cases h : canonicals T fs = true
    · rw [canon, if_pos h, canon, if_pos h]
    · rw [canon, if_neg h, canon, if_pos (canonicals_canons hT fs)]

theorem canonicals_canons {T : Table} (hT : ∀ c, T.canon (T.canon c) = T.canon c) : ∀ fs, canonicals T (canons T fs) = true
  | .nil => rfl
  | .cons n o r ty rest => by
    rw [canons, canonicals, Bool.and_eq_true]
    exact ⟨decide_eq_true (canon_idem hT ty), canonicals_canons hT rest⟩
end

/-- Canonicalising twice is canonicalising once; names, and which fields are required, stay; a field loses `ReadOnly` if some
field of the dictionary was not canonical. -/
theorem C80_canon {T : Table} (hT : ∀ c, T.canon (T.canon c) = T.canon c) (fs : Fields) :
    canon T (canon T (.td fs)) = canon T (.td fs) ∧ ∃ gs, canon T (.td fs) = .td gs ∧
      ∀ n, (gs.find n).map (·.opt) = (fs.find n).map (·.opt) ∧ (gs.find n).map (·.ty) = (fs.find n).map (fun g => canon T g.ty) ∧
        ((∀ m g, fs.find m = some g → canon T g.ty = g.ty) → Distincts fs → (gs.find n).map (·.ro) = (fs.find n).map (·.ro)) ∧
        ((∃ m g, fs.find m = some g ∧ canon T g.ty ≠ g.ty) → (gs.find n).map (·.ro) = (fs.find n).map (fun _ => false)) := by
  have hall : canonicals T fs = true → ∀ m g, fs.find m = some g → canon T g.ty = g.ty := by
    intro h
    induction fs using Fields.rec (motive_1 := fun _ => True) with
    | nil => intro m g k; cases k
    | cons n o r ty rest _ ih =>
      rw [canonicals, Bool.and_eq_true] at h
      intro m g k
      rw [Fields.find] at k
      split at k
      · cases k; exact of_decide_eq_true h.1
      · exact ih h.2 m g k
    | var => trivial
    | con => trivial
    | map => trivial
    | td => trivial
  have hcan : (∀ m g, fs.find m = some g → canon T g.ty = g.ty) → Distincts fs → canonicals T fs = true := by
    intro h hd
    clear hall
    induction fs using Fields.rec (motive_1 := fun _ => True) with
    | nil => rfl
    | cons n o r ty rest _ ih =>
      rw [canonicals, Bool.and_eq_true]
      refine ⟨decide_eq_true (h n ⟨o, r, ty⟩ (by rw [Fields.find, if_pos rfl])), ih ?_ hd.2.2⟩
      intro m g k
      have hm : n ≠ m := fun e => by rw [← e, hd.1] at k; cases k
      exact h m g (by rw [Fields.find, if_neg hm]; exact k)
    | var => trivial
    | con => trivial
    | map => trivial
    | td => trivial
  refine ⟨canon_idem hT _, ?_⟩
  by_cases h : canonicals T fs = true
  · refine ⟨fs, by rw [canon, if_pos h], fun n => ⟨rfl, ?_, fun _ _ => rfl, ?_⟩⟩
    · cases hf : fs.find n with
      | none => rfl
      | some g => exact congrArg some (hall h n g hf).symm
    · rintro ⟨m, g, h1, h2⟩
      exact absurd (hall h m g h1) h2
  · refine ⟨canons T fs, by rw [canon, if_neg h], fun n => ?_⟩
    rw [find_canons]
    refine ⟨?_, ?_, fun k hd => absurd (hcan k hd) h, fun _ => ?_⟩
    · cases fs.find n <;> rfl
    · cases fs.find n <;> rfl
    · cases fs.find n <;> rfl

/-- Types that have the same canonical form are unified alike, also if only one of two types is canonical. -/
theorem C80_unify_canon {R : Rules} {T : Table} (t s : Ty) (q r : Subs) :
    (∃ n, unify R T n t s q = some r) ↔ ∃ n, unify R T n (canon T t) (canon T s) q = some r := by
  by_cases h : canon T t ≠ t ∨ canon T s ≠ s
  · constructor
    · rintro ⟨n, e⟩
      match n with
      | 0 => cases e
      | n + 1 => exact ⟨n, by rw [unify, if_pos h] at e; exact e⟩
    · rintro ⟨n, e⟩
      exact ⟨n + 1, by rw [unify, if_pos h]; exact e⟩
  · rw [not_or, Decidable.not_not, Decidable.not_not] at h
    rw [h.1, h.2]

/-- Fields whose types are classes. -/
def flat : List (String × Bool × Bool × Nat) → Fields
  | [] => .nil
  | (n, opt, ro, c) :: fs => .cons n opt ro (.con c) (flat fs)

theorem le_canon {T : Table} (H : T.Ok) (d c : Nat) : T.le (T.canon d) c = T.le d c := by
  have h1 : T.le d (T.canon d) = true := by rw [H.canon_le]; exact H.refl d
  have h2 : T.le (T.canon d) d = true := by rw [← H.canon_le]; exact H.refl _
  rw [Bool.eq_iff_iff]
  exact ⟨fun h => H.trans _ _ _ h1 h, fun h => H.trans _ _ _ h2 h⟩

theorem ite_iff {α : Type} {p q : Prop} [Decidable p] [Decidable q] {a b c d : α} (h : p ↔ q) (h1 : a = c) (h2 : b = d) :
    (if p then a else b) = if q then c else d := by
  subst h1 h2
  by_cases hp : p
  · rw [if_pos hp, if_pos (h.1 hp)]
  · rw [if_neg hp, if_neg (fun hq => hp (h.2 hq))]

theorem unify_con {R : Rules} {T : Table} (n : Nat) (c d : Nat) (q : Subs) (hc : T.canon c = c) (hd : T.canon d = d)
    (H : T.Ok) : unify R T (n + 1) (.con c) (.con d) q = if T.le d c = true then some q else none := by
  rw [unify, if_neg (by simp [canon, hc, hd]), unifyCanon]
  by_cases e : c = d
  · subst e
    simp [H.refl]
  · simp [e]

theorem mapLoop_flat {R : Rules} {T : Table} (H : T.Ok) (n : Nat) (m : Bool) (x : Nat) (hx : T.canon x = x) (q : Subs) :
    ∀ fs, (∀ f ∈ fs, T.canon f.2.2.2 = f.2.2.2) →
      mapLoop (unify R T (n + 1)) m (.con x) (flat fs) q =
        if ∀ f ∈ fs, T.le f.2.2.2 x = true ∧ (m = true → T.le x f.2.2.2 = true) then some q else none
  | [], _ => by simp [flat, mapLoop]
  | (k, o, r, c) :: fs, h => by
    have hc : T.canon c = c := h _ List.mem_cons_self
    have ih := mapLoop_flat (R := R) H n m x hx q fs (fun f hf => h f (List.mem_cons_of_mem _ hf))
    rw [flat, mapLoop, unify_con n x c q hx hc H]
    by_cases h1 : T.le c x = true
    · simp only [if_pos h1, unify_con n c x q hc hx H]
      cases m
      · exact ih.trans (ite_iff (by simp [h1]) rfl rfl)
      · by_cases h2 : T.le x c = true
        · simp only [if_pos h2, if_true]
          exact ih.trans (ite_iff (by simp [h1, h2]) rfl rfl)
        · rw [if_neg h2]
          simp [h2]
    · rw [if_neg h1]
      simp [h1]

theorem canonicals_flat (T : Table) : ∀ fs, canonicals T (flat fs) = true ↔ ∀ f ∈ fs, T.canon f.2.2.2 = f.2.2.2
  | [] => by simp [flat, canonicals]
  | (k, o, r, c) :: fs => by
    simp [flat, canonicals, canonicals_flat T fs, canon]

theorem canons_flat (T : Table) : ∀ fs, canons T (flat fs) = flat (fs.map fun f => (f.1, f.2.1, false, T.canon f.2.2.2))
  | [] => rfl
  | (k, o, r, c) :: fs => by simp [flat, canons, canons_flat T fs, canon]

/-- A typed dictionary is a `Mapping[K, V]` if `str` is a `K` and the types of all fields are subtypes of `V`, and a
`MutableMapping[K, V]` if they are also supertypes. -/
theorem C80_mapping {T : Table} (H : T.Ok) (hT : ∀ c, T.canon (T.canon c) = T.canon c) (hstr : T.canon T.str = T.str) (n : Nat)
    (m : Bool) (k x : Nat) (fs : List (String × Bool × Bool × Nat)) (q : Subs) :
    unify code T (n + 3) (.map m (.con k) (.con x)) (.td (flat fs)) q =
      if T.le T.str k = true ∧ ∀ f ∈ fs, T.le f.2.2.2 x = true ∧ (m = true → T.le x f.2.2.2 = true) then some q else none := by
  have key : ∀ (n k x : Nat) (fs : List (String × Bool × Bool × Nat)), T.canon k = k → T.canon x = x →
      (∀ f ∈ fs, T.canon f.2.2.2 = f.2.2.2) → unify code T (n + 2) (.map m (.con k) (.con x)) (.td (flat fs)) q =
      if T.le T.str k = true ∧ ∀ f ∈ fs, T.le f.2.2.2 x = true ∧ (m = true → T.le x f.2.2.2 = true) then some q else none := by
    intro n k x fs hk hx hf
    rw [unify, if_neg (by simp [canon, hk, hx, (canonicals_flat T fs).2 hf]), unifyCanon]
    simp only [code, if_true]
    rw [unify_con n k T.str q hk hstr H]
    by_cases h1 : T.le T.str k = true
    · rw [if_pos h1]
      exact (mapLoop_flat H n m x hx q fs hf).trans (ite_iff (by simp [h1]) rfl rfl)
    · rw [if_neg h1]
      simp [h1]
  by_cases h : canon T (.map m (.con k) (.con x)) ≠ .map m (.con k) (.con x) ∨ canon T (.td (flat fs)) ≠ .td (flat fs)
  · rw [unify, if_pos h, canon, canon, canon, canon]
    by_cases hf : ∀ f ∈ fs, T.canon f.2.2.2 = f.2.2.2
    · rw [if_pos ((canonicals_flat T fs).2 hf), key n _ _ fs (hT k) (hT x) hf]
      exact ite_iff (by rw [H.canon_le]; simp only [H.canon_le, le_canon H]) rfl rfl
    · rw [if_neg (fun e => hf ((canonicals_flat T fs).1 e)), canons_flat, key n _ _ _ (hT k) (hT x)]
      · simp only [List.mem_map, forall_exists_index, and_imp, forall_apply_eq_imp_iff₂, H.canon_le, le_canon H]
      · simp only [List.mem_map, forall_exists_index, and_imp, forall_apply_eq_imp_iff₂]
        exact fun f _ => hT _
  · rw [not_or, Decidable.not_not, Decidable.not_not] at h
    have h1 := h.1
    rw [canon, canon, canon] at h1
    injection h1 with _ h1 h2
    injection h1 with h1
    injection h2 with h2
    have hf : ∀ f ∈ fs, T.canon f.2.2.2 = f.2.2.2 := by
      have h3 := h.2
      rw [canon] at h3
      by_cases hc : canonicals T (flat fs) = true
      · exact (canonicals_flat T fs).1 hc
      · rw [if_neg hc] at h3
        injection h3 with h3
        rw [← h3] at hc
        exact absurd (canonicals_canons hT _) hc
    exact key (n + 1) k x fs h1 h2 hf

/-! ## Examples -/

/-- `int` 0, `str` 1, `bool` 2, `list` 3, `MutableSequence` 4, `object` 5. -/
def T₀ : Table where
  le := fun d c => d = c || c = 5 || (d = 2 && c = 0) || ((d = 3 || d = 4) && (c = 3 || c = 4))
  sup := fun c => c = 5
  canon := fun c => if c = 3 then 4 else c
  str := 1

theorem ok₀ : T₀.Ok where
  refl := by intro c; simp [T₀]
  trans := by intro a b c; simp [T₀]; omega
  sup := by intro c d; simp [T₀]; omega
  canon_le := by
    intro c d
    by_cases h : c = 3
    · subst h
      rw [Bool.eq_iff_iff]
      simp [T₀]
      omega
    · show T₀.le d (if c = 3 then 4 else c) = _
      rw [if_neg h]
  canon_sup := by
    intro c
    by_cases h : c = 3
    · subst h; rfl
    · show T₀.sup (if c = 3 then 4 else c) = _
      rw [if_neg h]

abbrev int : Ty := .con 0
abbrev str : Ty := .con 1
abbrev bool : Ty := .con 2
abbrev list : Ty := .con 3

/-- Required, and may be changed. -/
abbrev req (n : String) (t : Ty) (fs : Fields) : Fields := .cons n false false t fs

/-- `NotRequired`. -/
abbrev may (n : String) (t : Ty) (fs : Fields) : Fields := .cons n true false t fs

/-- `ReadOnly`. -/
abbrev fixed (n : String) (t : Ty) (fs : Fields) : Fields := .cons n false true t fs

/-- Leaves both rules out. -/
abbrev strict : Rules := ⟨false, false⟩

/-- A pattern with a variable, a nested dictionary and a field that is only read, against a type with more fields. -/
example : unify strict T₀ 9 (.td (req "a" (.var 0) (fixed "b" (.td (may "c" (.var 0) .nil)) .nil)))
    (.td (fixed "d" list (req "b" (.td (may "c" int (req "e" str .nil))) (req "a" int .nil)))) [] = some [(0, int)] := by decide

example : Allowed T₀ false (.td (req "a" int (fixed "b" (.td (may "c" int .nil)) .nil))) ["b", "c"] none :=
  .into (g := ⟨false, true, .td (may "c" int .nil)⟩) rfl (.del (g := ⟨true, false, int⟩) rfl (.inl rfl) rfl)

/-- `Mapping[str, int]` and `MutableMapping[str, int]` against a field with `bool`. -/
example : unify code T₀ 9 (.map false str int) (.td (flat [("a", false, false, 2)])) [] = some [] ∧
    unify code T₀ 9 (.map true str int) (.td (flat [("a", false, false, 2)])) [] = none :=
  ⟨C80_mapping ok₀ (by intro c; simp only [T₀]; split <;> simp_all) rfl 6 false 1 0 _ [],
    C80_mapping ok₀ (by intro c; simp only [T₀]; split <;> simp_all) rfl 6 true 1 0 _ []⟩

/-- Covariance needs `ReadOnly`. -/
example : ∀ n, unify code T₀ n (.td (req "a" int .nil)) (.td (req "a" bool .nil)) [] = none
  | 0 => rfl
  | 1 => rfl
  | _ + 2 => rfl

example : unify code T₀ 9 (.td (fixed "a" int .nil)) (.td (req "a" bool .nil)) [] = some [] := by decide

/-- A `NotRequired` field of the pattern that the other type does not declare is accepted. Values of the other type may have a
further key with this name and another type; and if they may not have further keys, they get one when the field is set. -/
theorem C80_absent_fails : ∃ t s : Ty, unify code T₀ 9 t s [] = some [] ∧ (∃ v, Has T₀ true s v ∧ ¬ Has T₀ true t v) ∧
    ∃ v e p v', Has T₀ false s v ∧ Allowed T₀ false t p e ∧ edit p v e = some v' ∧ ¬ Has T₀ false s v' := by
  refine ⟨.td (req "a" int (may "b" int .nil)), .td (req "a" int .nil), by decide,
    ⟨.dict [("a", .atom 0), ("b", .atom 1)], ⟨⟨fun h => (nomatch h), fun x h => ?_, trivial⟩, fun h => (nomatch h)⟩, ?_⟩,
    .dict [("a", .atom 0)], some (.atom 0), ["b"], .dict [("b", .atom 0), ("a", .atom 0)], ?_, ?_, rfl, ?_⟩
  · cases h; rfl
  · intro h
    exact absurd (show T₀.le 1 0 = true from h.1.2.2.2.1 (.atom 1) rfl) (by decide)
  · refine ⟨⟨fun h => (nomatch h), fun x h => by cases h; rfl, trivial⟩, fun _ n h1 h2 => ?_⟩
    by_cases hn : n = "a"
    · subst hn; cases h2
    · exact h1 (by rw [List.lookup_cons, beq_eq_false_iff_ne.mpr hn]; rfl)
  · exact .set (g := ⟨true, false, int⟩) rfl (.inl rfl) rfl
  · intro h
    exact h.2 rfl "b" (fun k => nomatch k) rfl

/-- A field that is `ReadOnly` in the second type but not in the pattern is accepted. A value of a third type is then accepted
where the second is asked for, the second where the first is, and setting the field as the first type allows breaks the third. -/
theorem C80_readonly_fails : ∃ t s u : Ty, unify strict T₀ 9 t s [] = some [] ∧ unify strict T₀ 9 s u [] = some [] ∧
    (∀ n, unify code T₀ n t u [] = none) ∧
    ∃ v e p v', Has T₀ true u v ∧ Allowed T₀ false t p e ∧ edit p v e = some v' ∧ ¬ Has T₀ true u v' := by
  refine ⟨.td (req "a" int .nil), .td (fixed "a" int .nil), .td (req "a" bool .nil), by decide, by decide, ?_,
    .dict [("a", .atom 2)], some (.atom 0), ["a"], .dict [("a", .atom 0)], ?_, ?_, rfl, ?_⟩
  · intro n
    match n with
    | 0 => rfl
    | 1 => rfl
    | _ + 2 => rfl
  · exact ⟨⟨fun h => (nomatch h), fun x h => by cases h; rfl, trivial⟩, fun h => (nomatch h)⟩
  · exact .set (g := ⟨false, false, int⟩) rfl (.inl rfl) rfl
  · intro h
    exact absurd (show T₀.le 0 2 = true from h.1.2.1 (.atom 0) rfl) (by decide)

/-- A field whose type is not canonical makes the other fields lose `ReadOnly`: a type whose values all have the pattern is
refused, and accepted without that field. -/
theorem C80_canonical_fails : ∃ (fs gs : Fields) (f : Fields → Fields), (∀ n, unify code T₀ n (.td (f fs)) (.td (f gs)) [] = none) ∧
    unify code T₀ 9 (.td fs) (.td gs) [] = some [] ∧ ∀ v, Has T₀ true (.td (f gs)) v → Has T₀ true (.td (f fs)) v := by
  refine ⟨fixed "a" int .nil, req "a" bool .nil, req "b" list, ?_, by decide, ?_⟩
  · intro n
    match n with
    | 0 => rfl
    | 1 => rfl
    | 2 => rfl
    | 3 => rfl
    | _ + 4 => rfl
  · intro v hv
    cases v with
    | atom c => exact hv
    | dict kvs =>
      refine ⟨⟨hv.1.1, hv.1.2.1, hv.1.2.2.1, fun x hx => ?_, trivial⟩, fun h => (nomatch h)⟩
      have := hv.1.2.2.2.1 x hx
      cases x with
      | atom d => exact ok₀.trans d 2 0 this (by decide)
      | dict kvs => exact absurd (show T₀.sup 2 = true from this) (by decide)

/-- Typed dictionaries are accepted as mappings: values may have further keys with values of other types, and deleting a key, as
mutable mappings allow, breaks the type. -/
theorem C80_mapping_fails : ∃ t s : Ty, unify code T₀ 9 t s [] = some [] ∧ (∃ v, Has T₀ true s v ∧ ¬ Has T₀ true t v) ∧
    ∃ v n v', Has T₀ false s v ∧ edit [n] v none = some v' ∧ Has T₀ false t v' ∧ ¬ Has T₀ true s v' := by
  refine ⟨.map true str int, .td (req "a" int .nil), by decide,
    ⟨.dict [("a", .atom 0), ("b", .atom 1)], ⟨⟨fun h => (nomatch h), fun x h => ?_, trivial⟩, fun h => (nomatch h)⟩, ?_⟩,
    .dict [("a", .atom 0)], "a", .dict [], ?_, rfl, ?_, ?_⟩
  · cases h; rfl
  · intro h
    exact absurd (show T₀.le 1 0 = true from (h "b" (.atom 1) rfl).2) (by decide)
  · refine ⟨⟨fun h => (nomatch h), fun x h => by cases h; rfl, trivial⟩, fun _ n h1 h2 => ?_⟩
    by_cases hn : n = "a"
    · subst hn; cases h2
    · exact h1 (by rw [List.lookup_cons, beq_eq_false_iff_ne.mpr hn]; rfl)
  · intro n y h
    cases h
  · intro h
    exact absurd (h.1.1 rfl) (by decide)

/-! ## Parameters -/

/-- What `unify` sees of a generic typed dictionary with arguments, or of a class derived from one: `canonicalize` (680-694)
returns the class if its fields are canonical, and `_get_typeddict_hints` (393-418) then substitutes the arguments; else there is
a new class without parameters, and the parameters stay in the fields. -/
def alias (T : Table) (ps : List Nat) (fs : Fields) (args : List Ty) : Ty :=
  if canonicals T fs then .td (insts (ps.zip args) fs) else .td (canons T fs)

/-- With canonical fields, arguments take the place of the parameters. -/
theorem C80_alias_partial {T : Table} {ps : List Nat} {fs : Fields} {args : List Ty} (h : canonicals T fs = true) :
    alias T ps fs args = inst (ps.zip args) (.td fs) := by
  rw [alias, if_pos h, inst]

/-- With a field that is not canonical, the argument is ignored: `Datum[int]` accepts a dictionary with `str`. -/
theorem C80_alias_fails : ∃ (ps : List Nat) (fs : Fields) (args : List Ty) (s : Ty) (r : Subs) (v : V),
    unify code T₀ 9 (alias T₀ ps fs args) s [] = some r ∧ Has T₀ false s v ∧ ¬ Has T₀ true (inst (ps.zip args) (.td fs)) v := by
  refine ⟨[0], req "a" (.var 0) (req "b" list .nil), [int], .td (req "a" str (req "b" list .nil)), [(0, str)],
    .dict [("a", .atom 1), ("b", .atom 3)], by decide, ⟨⟨fun h => (nomatch h), fun x h => by cases h; rfl, fun h => (nomatch h),
      fun x h => by cases h; rfl, trivial⟩, fun _ n h1 h2 => ?_⟩, ?_⟩
  · by_cases hn : n = "a"
    · subst hn; cases h2
    · by_cases hm : n = "b"
      · subst hm; cases h2
      · exact h1 (by rw [List.lookup_cons, beq_eq_false_iff_ne.mpr hn, List.lookup_cons, beq_eq_false_iff_ne.mpr hm]; rfl)
  · intro h
    exact absurd (show T₀.le 1 0 = true from h.1.2.1 (.atom 1) rfl) (by decide)

/-! ## Recursive typed dictionaries -/

/-- Types of fields: classes, and typed dictionaries by name. -/
inductive Named where
  | con (c : Nat)
  | ref (d : Nat)
deriving DecidableEq

/-- Whether `canonicalize` ends when calls may be nested `n` deep: it goes into all fields of a typed dictionary (683, 688). -/
def ends (D : Nat → List Named) : Nat → Named → Bool
  | _, .con _ => true
  | 0, .ref _ => false
  | n + 1, .ref d => (D d).all (ends D n)

/-- The definition of `d` mentions `e`. -/
def Mentions (D : Nat → List Named) (e d : Nat) : Prop := .ref e ∈ D d

theorem ends_mono {D : Nat → List Named} : ∀ {n m : Nat} {t : Named}, n ≤ m → ends D n t = true → ends D m t = true
  | _, 0, .con _, _, _ => rfl
  | _, _ + 1, .con _, _, _ => rfl
  | 0, _, .ref _, _, h => by cases h
  | n + 1, 0, .ref d, hn, _ => by omega
  | n + 1, m + 1, .ref d, hn, h => by
    rw [ends, List.all_eq_true] at h ⊢
    exact fun t ht => ends_mono (by omega) (h t ht)

theorem ends_all {D : Nat → List Named} : ∀ (l : List Named), (∀ t ∈ l, ∃ n, ends D n t = true) → ∃ n, l.all (ends D n) = true
  | [], _ => ⟨0, rfl⟩
  | t :: l, h => by
    obtain ⟨n, hn⟩ := h t (List.mem_cons_self ..)
    obtain ⟨m, hm⟩ := ends_all l fun u hu => h u (List.mem_cons_of_mem _ hu)
    refine ⟨n + m, ?_⟩
    rw [List.all_cons, Bool.and_eq_true]
    refine ⟨ends_mono (by omega) hn, ?_⟩
    rw [List.all_eq_true] at hm ⊢
    exact fun u hu => ends_mono (by omega) (hm u hu)

/-- `canonicalize`, and with it `unify`, ends on a typed dictionary iff there is no infinite chain of definitions that mention
each other. -/
theorem C80_ends (D : Nat → List Named) (d : Nat) : (∃ n, ends D n (.ref d) = true) ↔ Acc (Mentions D) d := by
  constructor
  · rintro ⟨n, h⟩
    induction n generalizing d with
    | zero => cases h
    | succ n ih =>
      rw [ends, List.all_eq_true] at h
      exact ⟨d, fun e he => ih e (h (.ref e) he)⟩
  · intro h
    induction h with
    | intro d _ ih =>
      obtain ⟨n, hn⟩ := ends_all (D := D) (D d) (by
        intro t ht
        cases t with
        | con c => exact ⟨0, rfl⟩
        | ref e => exact ih e ht)
      exact ⟨n + 1, hn⟩

example : ∃ n, ends (fun d => if d = 0 then [.ref 1, .con 3] else []) n (.ref 0) = true := ⟨2, rfl⟩

/-- `class Node(TypedDict): next: NotRequired[Node]` cannot be unified with anything. -/
theorem C80_recursive_fails (D : Nat → List Named) (d : Nat) (h : .ref d ∈ D d) : ∀ n, ends D n (.ref d) = false := by
  intro n
  induction n with
  | zero => rfl
  | succ n ih =>
    rw [ends, List.all_eq_false]
    exact ⟨.ref d, h, by rw [ih]; exact Bool.false_ne_true⟩

end Verif.Unify.TypedDict
