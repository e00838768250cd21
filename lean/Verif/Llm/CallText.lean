import Verif.Llm.ToolCalls
import Verif.Llm.JsonText

/-!
# C115: tool calls as text

Model of `_validate_tool_call` and `_serialize_tool_call` (`handlers/llm/encoding.py` 741-789) together with `json.loads` and
`json.dumps` of the arguments: what C63 states for the dict of the arguments, for the text that the model sends.

* In C63 names and encoded values are numbers. A `Coding` says which: `num` and `raw` for names and values that are read, `name` and
  `val` for those that are written.
* `function.name` and `id` are as in C63.
-/

namespace Verif.Llm.CallText

open ToolCalls (World Ctx Call Decoded CallErr Param Plain Binds)
open JsonText (Floats J loads Document Ok StrOk)

variable {Fl : Type}

/-- The numbers of names and of encoded values. -/
structure Coding (Fl : Type) where
  num : Text → Nat
  name : Nat → Text
  raw : J Fl → Nat
  val : Nat → J Fl

/-- The tool call of the API, with `function.arguments`. -/
structure TextCall where
  id : Nat
  name : Nat
  args : Text

/-- What `_validate_tool_call` raises: `JSONDecodeError`, `AttributeError` for `.items()` of something else than a dict, and the errors of
C63. -/
inductive Err where
  | json
  | noItems
  | call (e : CallErr)
deriving DecidableEq

/-- The loop and `bind` (751-767), for the items of a dict. -/
def decodeItems (W : World) (C : Coding Fl) (ctx : Ctx) (c : TextCall) (l : List (Text × J Fl)) : Except Err Decoded :=
  match ToolCalls.decode W ctx ⟨c.id, c.name, l.map fun x => (C.num x.1, C.raw x.2)⟩ with
  | .ok d => .ok d
  | .error e => .error (.call e)

/-- `_validate_tool_call` (741-767): the tool is looked up before the arguments are read. -/
def decodeText (W : World) (C : Coding Fl) (F : Floats Fl) (ctx : Ctx) (c : TextCall) : Except Err Decoded :=
  match ctx.lookup c.name with
  | none => .error (.call .key)
  | some (.other _) => .error (.call .notTool)
  | some (.tool _) =>
    match loads F c.args with
    | none => .error .json
    | some (.obj l) => decodeItems W C ctx c l
    | some _ => .error .noItems

/-- `_serialize_tool_call` (770-789). -/
def encodeText (W : World) (C : Coding Fl) (F : Floats Fl) (d : Decoded) : Option TextCall :=
  (ToolCalls.encode W d).map fun c => ⟨c.id, c.name, JsonText.dumps F (.obj (c.args.map fun x => (C.name x.1, C.val x.2)))⟩

/-! ## What is stated -/

/-- The members of an object fit the parameters: each is a parameter and has a value of its type; required ones are there. -/
structure FitsText (W : World) (C : Coding Fl) (ps : List Param) (l : List (Text × J Fl)) : Prop where
  known : ∀ k v, (k, v) ∈ l → ∃ p ∈ ps, p.name = C.num k ∧ ∃ x, W.load p.ty (C.raw v) = some x
  complete : ∀ p ∈ ps, p.default = false → ∃ k v, (k, v) ∈ l ∧ p.name = C.num k

/-- The parameters that are given, in their order, with the values of the members of an object. -/
inductive BindsText (W : World) (C : Coding Fl) (l : List (Text × J Fl)) : List Param → List (Nat × ToolCalls.BVal) → Prop where
  | nil : BindsText W C l [] []
  | given {p ps b k v x} : (k, v) ∈ l → p.name = C.num k → W.load p.ty (C.raw v) = some x → BindsText W C l ps b →
      BindsText W C l (p :: ps) ((p.name, .one x) :: b)
  | left {p ps b} : (∀ k v, (k, v) ∈ l → p.name ≠ C.num k) → BindsText W C l ps b → BindsText W C l (p :: ps) b

/-- Different names have different numbers. -/
def Coding.Inj (C : Coding Fl) : Prop := ∀ s t, C.num s = C.num t → s = t

/-! ## Proofs -/

/-- The keys of an object that is read are different. -/
theorem obj_nodup {F : Floats Fl} {s : Text} {l : List (Text × J Fl)} (h : loads F s = some (.obj l)) : (l.map Prod.fst).Nodup := by
  obtain ⟨w, t, w', -, -, -, hv⟩ := (JsonText.C114_loads F s _).1 h
  generalize hj : J.obj l = v at hv
  cases hv <;> cases hj
  · simp
  · rename_i hd
    rw [hd.1]
    exact JsonText.firsts_nodup _

theorem isDict_coded {C : Coding Fl} (hC : C.Inj) {l : List (Text × J Fl)} (h : (l.map Prod.fst).Nodup) :
    ToolCalls.IsDict (l.map fun x => (C.num x.1, C.raw x.2)) := by
  unfold ToolCalls.IsDict
  rw [List.map_map]
  induction l with
  | nil => simp
  | cons x l ih =>
    rw [List.map_cons, List.nodup_cons] at h ⊢
    refine ⟨?_, ih h.2⟩
    intro hm
    obtain ⟨y, hy, he⟩ := List.mem_map.1 hm
    exact h.1 (hC _ _ he ▸ List.mem_map_of_mem (f := Prod.fst) hy)

theorem mem_coded {C : Coding Fl} {l : List (Text × J Fl)} {n r : Nat} :
    (n, r) ∈ (l.map fun x => (C.num x.1, C.raw x.2)) ↔ ∃ k v, (k, v) ∈ l ∧ C.num k = n ∧ C.raw v = r := by
  rw [List.mem_map]
  constructor
  · rintro ⟨⟨k, v⟩, h, e⟩
    cases e
    exact ⟨k, v, h, rfl, rfl⟩
  · rintro ⟨k, v, h, rfl, rfl⟩
    exact ⟨(k, v), h, rfl⟩

theorem fits_iff {W : World} {C : Coding Fl} {ps : List Param} {l : List (Text × J Fl)} :
    ToolCalls.Fits W ps (l.map fun x => (C.num x.1, C.raw x.2)) ↔ FitsText W C ps l := by
  constructor
  · intro h
    refine ⟨fun k v hm => ?_, fun p hp hd => ?_⟩
    · obtain ⟨p, hp, hn, x, hx⟩ := h.known _ _ (mem_coded.2 ⟨k, v, hm, rfl, rfl⟩)
      exact ⟨p, hp, hn, x, hx⟩
    · obtain ⟨raw, hr⟩ := h.complete p hp hd
      obtain ⟨k, v, hm, hn, -⟩ := mem_coded.1 hr
      exact ⟨k, v, hm, hn.symm⟩
  · intro h
    refine ⟨fun n raw hm => ?_, fun p hp hd => ?_⟩
    · obtain ⟨k, v, hkv, rfl, rfl⟩ := mem_coded.1 hm
      exact h.known k v hkv
    · obtain ⟨k, v, hm, hn⟩ := h.complete p hp hd
      exact ⟨C.raw v, mem_coded.2 ⟨k, v, hm, hn.symm, rfl⟩⟩

theorem binds_text {W : World} {C : Coding Fl} {l : List (Text × J Fl)} {ps : List Param} {b : List (Nat × ToolCalls.BVal)}
    (h : Binds W (l.map fun x => (C.num x.1, C.raw x.2)) ps b) : BindsText W C l ps b := by
  induction h with
  | nil => exact .nil
  | given hm hl _ ih =>
    obtain ⟨k, v, hm, hn, hr⟩ := mem_coded.1 hm
    exact .given hm hn.symm (hr ▸ hl) ih
  | left hno _ ih => exact .left (fun k v hm hn => hno (C.raw v) (mem_coded.2 ⟨k, v, hm, hn.symm, rfl⟩)) ih

theorem mem_unique {l : List (Text × J Fl)} (h : (l.map Prod.fst).Nodup) {k : Text} {v w : J Fl} (hv : (k, v) ∈ l) (hw : (k, w) ∈ l) :
    v = w := by
  induction l with
  | nil => simp at hv
  | cons x l ih =>
    rw [List.map_cons, List.nodup_cons] at h
    rcases List.mem_cons.1 hv with e | hv <;> rcases List.mem_cons.1 hw with e' | hw
    · rw [← e] at e'; cases e'; rfl
    · exact absurd (List.mem_map_of_mem (f := Prod.fst) hw) (by rw [show k = x.1 from congrArg Prod.fst e] at *; exact h.1)
    · exact absurd (List.mem_map_of_mem (f := Prod.fst) hv) (by rw [show k = x.1 from congrArg Prod.fst e'] at *; exact h.1)
    · exact ih h.2 hv hw

/-- What is bound does not depend on the order of the members. -/
theorem binds_unique {W : World} {C : Coding Fl} (hC : C.Inj) {l l' : List (Text × J Fl)} (hl : (l.map Prod.fst).Nodup)
    (hs : ∀ x, x ∈ l ↔ x ∈ l') {ps : List Param} {b b' : List (Nat × ToolCalls.BVal)} (h : BindsText W C l ps b)
    (h' : BindsText W C l' ps b') : b = b' := by
  induction h generalizing b' with
  | nil => cases h'; rfl
  | given hm hn hx _ ih =>
    cases h' with
    | given hm' hn' hx' h'' =>
      have hk := hC _ _ (hn.symm.trans hn')
      subst hk
      have := mem_unique hl hm ((hs _).2 hm')
      subst this
      rw [hx] at hx'
      cases hx'
      rw [ih h'']
    | left hno _ => exact absurd hn (hno _ _ ((hs _).1 hm))
  | left hno _ ih =>
    cases h' with
    | given hm' hn' _ _ => exact absurd hn' (hno _ _ ((hs _).2 hm'))
    | left _ h'' => exact ih h''

theorem decodeText_of {W : World} {C : Coding Fl} {F : Floats Fl} {ctx : Ctx} {c : TextCall} {t : Nat} (hc : ToolCalls.IsDict ctx)
    (ht : (c.name, .tool t) ∈ ctx) : decodeText W C F ctx c =
      match loads F c.args with
      | none => .error .json
      | some (.obj l) => decodeItems W C ctx c l
      | some _ => .error .noItems := by
  rw [decodeText, (ToolCalls.lookup_iff hc _ _).2 ht]

theorem decodeItems_ok {W : World} {C : Coding Fl} {ctx : Ctx} {c : TextCall} {l : List (Text × J Fl)} {d : Decoded} :
    decodeItems W C ctx c l = .ok d ↔ ToolCalls.decode W ctx ⟨c.id, c.name, l.map fun x => (C.num x.1, C.raw x.2)⟩ = .ok d := by
  unfold decodeItems
  split
  · rename_i h; rw [h]; simp
  · rename_i h; rw [h]; simp

theorem decodeText_ok {W : World} {C : Coding Fl} {F : Floats Fl} {ctx : Ctx} {c : TextCall} {t : Nat} {d : Decoded}
    (hc : ToolCalls.IsDict ctx) (ht : (c.name, .tool t) ∈ ctx) :
    decodeText W C F ctx c = .ok d ↔ ∃ l, loads F c.args = some (.obj l) ∧ decodeItems W C ctx c l = .ok d := by
  rw [decodeText_of hc ht]
  split
  · rename_i h; simp [h]
  · rename_i l h
    constructor
    · intro hd; exact ⟨l, h, hd⟩
    · rintro ⟨l', h', hd⟩
      rw [h] at h'
      cases h'
      exact hd
  · rename_i v hv h
    constructor
    · intro hd; cases hd
    · rintro ⟨l', h', hd⟩
      rw [h] at h'
      cases h'
      exact absurd rfl (hv l')

/-- For a tool whose parameters can all be given by name, a text is decoded exactly if it is an object of JSON whose members fit the
parameters; then the parameters are bound to the values of the members. -/
theorem C115_decode (W : World) (C : Coding Fl) (F : Floats Fl) (hC : C.Inj) (ctx : Ctx) (c : TextCall) (t : Nat)
    (hc : ToolCalls.IsDict ctx) (ht : (c.name, .tool t) ∈ ctx) (hp : Plain (W.tools t).params) :
    ((∃ d, decodeText W C F ctx c = .ok d) ↔ ∃ l, Document F (.obj l) c.args ∧ FitsText W C (W.tools t).params l) ∧
    ∀ d l, decodeText W C F ctx c = .ok d → Document F (.obj l) c.args →
      d.tool = t ∧ d.id = c.id ∧ d.name = c.name ∧ BindsText W C l (W.tools t).params d.bound := by
  have key : ∀ l, loads F c.args = some (.obj l) → _ := fun l h =>
    ToolCalls.C63_decode W ctx ⟨c.id, c.name, l.map fun x => (C.num x.1, C.raw x.2)⟩ t hc ht hp (isDict_coded hC (obj_nodup h))
  refine ⟨⟨?_, ?_⟩, ?_⟩
  · rintro ⟨d, hd⟩
    obtain ⟨l, hl, hd⟩ := (decodeText_ok hc ht).1 hd
    exact ⟨l, (JsonText.C114_loads F _ _).1 hl, fits_iff.1 ((key l hl).1.1 ⟨d, decodeItems_ok.1 hd⟩)⟩
  · rintro ⟨l, hl, hf⟩
    have hl := (JsonText.C114_loads F _ _).2 hl
    obtain ⟨d, hd⟩ := (key l hl).1.2 (fits_iff.2 hf)
    exact ⟨d, (decodeText_ok hc ht).2 ⟨l, hl, decodeItems_ok.2 hd⟩⟩
  · intro d l hd hl
    have hl := (JsonText.C114_loads F _ _).2 hl
    obtain ⟨l', hl', hd⟩ := (decodeText_ok hc ht).1 hd
    rw [hl] at hl'
    cases hl'
    obtain ⟨h1, h2, h3, h4⟩ := (key l hl).2 d (decodeItems_ok.1 hd)
    exact ⟨h1, h2, h3, binds_text h4⟩

/-- Neither white space and escapes nor the order of the arguments matter. -/
theorem C115_order (W : World) (C : Coding Fl) (F : Floats Fl) (hC : C.Inj) (ctx : Ctx) (id name t : Nat) (s s' : Text)
    (l l' : List (Text × J Fl)) (hc : ToolCalls.IsDict ctx) (ht : (name, .tool t) ∈ ctx) (hp : Plain (W.tools t).params)
    (hs : Document F (.obj l) s) (hs' : Document F (.obj l') s') (hl : ∀ x, x ∈ l ↔ x ∈ l') (d : Decoded) :
    decodeText W C F ctx ⟨id, name, s⟩ = .ok d ↔ decodeText W C F ctx ⟨id, name, s'⟩ = .ok d := by
  have one : ∀ (s s' : Text) (l l' : List (Text × J Fl)), Document F (.obj l) s → Document F (.obj l') s' → (∀ x, x ∈ l ↔ x ∈ l') →
      decodeText W C F ctx ⟨id, name, s⟩ = .ok d → decodeText W C F ctx ⟨id, name, s'⟩ = .ok d := by
    intro s s' l l' hs hs' hl hd
    obtain ⟨a1, a2⟩ := C115_decode W C F hC ctx ⟨id, name, s⟩ t hc ht hp
    obtain ⟨b1, b2⟩ := C115_decode W C F hC ctx ⟨id, name, s'⟩ t hc ht hp
    obtain ⟨m, hm, hf⟩ := a1.1 ⟨d, hd⟩
    have hml : m = l := by
      have h1 := (JsonText.C114_loads F _ _).2 hm
      have h2 := (JsonText.C114_loads F _ _).2 hs
      simp only at h1
      rw [h1] at h2
      cases h2
      rfl
    subst hml
    have hf' : FitsText W C (W.tools t).params l' :=
      ⟨fun k v h => hf.known k v ((hl _).2 h), fun p hp hd => by
        obtain ⟨k, v, h, hn⟩ := hf.complete p hp hd
        exact ⟨k, v, (hl _).1 h, hn⟩⟩
    obtain ⟨d', hd'⟩ := b1.2 ⟨l', hs', hf'⟩
    obtain ⟨e1, e2, e3, e4⟩ := a2 d m hd hs
    obtain ⟨f1, f2, f3, f4⟩ := b2 d' l' hd' hs'
    have hb := binds_unique hC (obj_nodup ((JsonText.C114_loads F _ _).2 hs)) hl e4 f4
    have : d = d' := by
      cases d; cases d'
      simp only at e1 e2 e3 f1 f2 f3 hb
      simp [e1, e2, e3, f1, f2, f3, hb]
    rw [this]
    exact hd'
  exact ⟨one s s' l l' hs hs' hl, one s' s l' l hs' hs fun x => (hl x).symm⟩

/-- Texts that are not JSON and texts that are something else than an object are rejected, each with its error, but only for a tool: an
unknown name is noticed first. -/
theorem C115_errors (W : World) (C : Coding Fl) (F : Floats Fl) (ctx : Ctx) (c : TextCall) (hc : ToolCalls.IsDict ctx) :
    ((∀ o, (c.name, o) ∉ ctx) → decodeText W C F ctx c = .error (.call .key)) ∧
    (∀ o, (c.name, .other o) ∈ ctx → decodeText W C F ctx c = .error (.call .notTool)) ∧
    ∀ t, (c.name, .tool t) ∈ ctx →
      ((∀ v, ¬ Document F v c.args) → decodeText W C F ctx c = .error .json) ∧
      (∀ v, Document F v c.args → (∀ l, v ≠ .obj l) → decodeText W C F ctx c = .error .noItems) ∧
      (∀ l, Document F (.obj l) c.args → decodeText W C F ctx c ≠ .error .json ∧ decodeText W C F ctx c ≠ .error .noItems) := by
  refine ⟨?_, ?_, ?_⟩
  · intro h
    rw [decodeText, (ToolCalls.lookup_none_iff _ _).2 h]
  · intro o h
    rw [decodeText, (ToolCalls.lookup_iff hc _ _).2 h]
  · intro t ht
    rw [decodeText_of hc ht]
    refine ⟨?_, ?_, ?_⟩
    · intro h
      cases hl : loads F c.args with
      | none => rfl
      | some v => exact absurd ((JsonText.C114_loads F _ _).1 hl) (h v)
    · intro v h hv
      rw [(JsonText.C114_loads F _ _).2 h]
      cases v with
      | obj l => exact absurd rfl (hv l)
      | _ => rfl
    · intro l h
      rw [(JsonText.C114_loads F _ _).2 h]
      simp only [decodeItems]
      split <;> simp

/-- The names that are bound are names of parameters, each once. -/
theorem binds_names {W : World} {args : List (Nat × Nat)} {ps : List Param} {b : List (Nat × ToolCalls.BVal)} (h : Binds W args ps b) :
    (b.map Prod.fst).Sublist (ps.map (·.name)) := by
  induction h with
  | nil => simp
  | given _ _ _ ih => simpa using ih
  | left _ _ ih => exact ih.cons _

theorem nodup_of_map {α β : Type} (f : α → β) {l : List α} (h : (l.map f).Nodup) : l.Nodup := by
  induction l with
  | nil => simp
  | cons a l ih =>
    rw [List.map_cons, List.nodup_cons] at h
    exact List.nodup_cons.2 ⟨fun hm => h.1 (List.mem_map_of_mem hm), ih h.2⟩

theorem okItems_of : ∀ {l : List (Text × J Fl)}, (∀ k v, (k, v) ∈ l → StrOk k ∧ Ok v) → JsonText.OkItems l
  | [], _ => by rw [JsonText.OkItems]; trivial
  | (k, v) :: l, h => by
    rw [JsonText.OkItems, JsonText.OkItem]
    exact ⟨h k v (by simp), okItems_of fun k v hm => h k v (List.mem_cons_of_mem _ hm)⟩

/-- A call that was decoded and is sent again as text is decoded to the same call, if the tool has its own name in the context, its codecs
give values back, names of parameters and encoded values can be written as JSON, and names and values that are written have their
numbers. -/
theorem C115_round_partial (W : World) (C : Coding Fl) (F : Floats Fl) (hF : F.Ok) (hC : C.Inj) (ctx : Ctx) (c : TextCall) (t : Nat)
    (hc : ToolCalls.IsDict ctx) (ht : (c.name, .tool t) ∈ ctx) (hp : Plain (W.tools t).params) (d : Decoded)
    (hd : decodeText W C F ctx c = .ok d) (hname : (W.tools t).name = c.name)
    (hcodec : ∀ p ∈ (W.tools t).params, ∀ raw v, W.load p.ty raw = some v → ∃ r, W.dump (.one v) = some r ∧ W.load p.ty r = some v)
    (hdump : ∀ v r, W.dump v = some r → C.raw (C.val r) = r ∧ Ok (C.val r))
    (hpar : ∀ p ∈ (W.tools t).params, C.num (C.name p.name) = p.name ∧ StrOk (C.name p.name)) :
    ∃ c', encodeText W C F d = some c' ∧ decodeText W C F ctx c' = .ok d := by
  obtain ⟨l, hl, hi⟩ := (decodeText_ok hc ht).1 hd
  have hi := decodeItems_ok.1 hi
  have hdict := isDict_coded hC (obj_nodup hl)
  obtain ⟨c', he, hd'⟩ := ToolCalls.C63_round_trip_partial W ctx _ t hc ht hp hdict d hi hname
    (fun p hp' raw v _ hv => hcodec p hp' raw v hv)
  obtain ⟨-, -, hn3, hb⟩ := (ToolCalls.C63_decode W ctx _ t hc ht hp hdict).2 d hi
  have htool := ((ToolCalls.C63_decode W ctx _ t hc ht hp hdict).2 d hi).1
  obtain ⟨-, hk, hv⟩ := ToolCalls.C63_encode W d c' he
  have hcn : c'.name = c.name := by
    rw [ToolCalls.encode, Option.map_eq_some_iff] at he
    obtain ⟨as, -, rfl⟩ := he
    simp only [htool, hname]
  have hsub := binds_names hb
  have hpn : ∀ n r, (n, r) ∈ c'.args → (∃ p ∈ (W.tools t).params, p.name = n) ∧ C.raw (C.val r) = r ∧ Ok (C.val r) := by
    intro n r hm
    have h1 : n ∈ c'.args.map Prod.fst := List.mem_map_of_mem (f := Prod.fst) hm
    rw [hk] at h1
    obtain ⟨p, hp', hpe⟩ := List.mem_map.1 (hsub.subset h1)
    obtain ⟨i, hi⟩ := List.getElem?_of_mem hm
    obtain ⟨v, -, hdv⟩ := hv i n r hi
    exact ⟨⟨p, hp', hpe⟩, hdump v r hdv⟩
  have hback : (c'.args.map fun x => (C.name x.1, C.val x.2)).map (fun x => (C.num x.1, C.raw x.2)) = c'.args := by
    rw [List.map_map]
    conv => rhs; rw [← List.map_id c'.args]
    refine List.map_congr_left fun x hx => ?_
    obtain ⟨n, r⟩ := x
    obtain ⟨⟨p, hp', rfl⟩, h2, -⟩ := hpn n r hx
    simp [(hpar p hp').1, h2]
  have hok : Ok (J.obj (c'.args.map fun x => (C.name x.1, C.val x.2))) := by
    rw [Ok]
    have hitems : JsonText.OkItems (c'.args.map fun x => (C.name x.1, C.val x.2)) := by
      refine okItems_of fun k v hm => ?_
      obtain ⟨⟨n, r⟩, hx, e⟩ := List.mem_map.1 hm
      cases e
      obtain ⟨⟨p, hp', rfl⟩, -, h3⟩ := hpn n r hx
      exact ⟨(hpar p hp').2, h3⟩
    have hnd : ((c'.args.map fun x => (C.name x.1, C.val x.2)).map Prod.fst).Nodup := by
      have h0 : (c'.args.map Prod.fst).Nodup := by rw [hk]; exact hp.2.sublist hsub
      rw [← hback, List.map_map] at h0
      have : (c'.args.map fun x => (C.name x.1, C.val x.2)).map (Prod.fst ∘ fun x => (C.num x.1, C.raw x.2)) =
          ((c'.args.map fun x => (C.name x.1, C.val x.2)).map Prod.fst).map C.num := by
        rw [List.map_map, List.map_map, List.map_map]; rfl
      rw [this] at h0
      exact nodup_of_map C.num h0
    exact ⟨hnd, hitems⟩
  have htn : ((⟨c'.id, c'.name, JsonText.dumps F (.obj (c'.args.map fun x => (C.name x.1, C.val x.2)))⟩ : TextCall).name, .tool t) ∈ ctx := by
    simp only [hcn]; exact ht
  refine ⟨⟨c'.id, c'.name, JsonText.dumps F (.obj (c'.args.map fun x => (C.name x.1, C.val x.2)))⟩, ?_, ?_⟩
  · rw [encodeText, he]; rfl
  · refine (decodeText_ok hc htn).2 ⟨_, JsonText.C114_round F hF _ hok, decodeItems_ok.2 ?_⟩
    rw [hback]
    exact hd'

/-! ## Examples -/

/-- A number for each list of numbers. -/
def pack : Text → Nat
  | [] => 0
  | a :: l => 2 ^ a * (2 * pack l + 1)

theorem pow_odd : ∀ (a b x y : Nat), 2 ^ a * (2 * x + 1) = 2 ^ b * (2 * y + 1) → a = b ∧ x = y
  | 0, 0, x, y, h => ⟨rfl, by simp at h; omega⟩
  | 0, b + 1, x, y, h => by
    rw [Nat.pow_succ, Nat.mul_comm (2 ^ b) 2, Nat.mul_assoc] at h
    generalize 2 ^ b * (2 * y + 1) = z at h
    omega
  | a + 1, 0, x, y, h => by
    rw [Nat.pow_succ, Nat.mul_comm (2 ^ a) 2, Nat.mul_assoc] at h
    generalize 2 ^ a * (2 * x + 1) = z at h
    omega
  | a + 1, b + 1, x, y, h => by
    have h' : 2 ^ a * (2 * x + 1) = 2 ^ b * (2 * y + 1) := by
      rw [Nat.pow_succ, Nat.mul_comm (2 ^ a) 2, Nat.mul_assoc, Nat.pow_succ, Nat.mul_comm (2 ^ b) 2, Nat.mul_assoc] at h
      omega
    obtain ⟨h1, h2⟩ := pow_odd a b x y h'
    exact ⟨by rw [h1], h2⟩

theorem pack_inj : ∀ s t, pack s = pack t → s = t
  | [], [], _ => rfl
  | [], b :: t, h => by
    simp only [pack] at h
    have := Nat.mul_pos (Nat.two_pow_pos b) (Nat.succ_pos (2 * pack t))
    rw [Nat.succ_eq_add_one] at this
    generalize 2 ^ b * (2 * pack t + 1) = z at h this
    omega
  | a :: s, [], h => by
    simp only [pack] at h
    have := Nat.mul_pos (Nat.two_pow_pos a) (Nat.succ_pos (2 * pack s))
    rw [Nat.succ_eq_add_one] at this
    generalize 2 ^ a * (2 * pack s + 1) = z at h this
    omega
  | a :: s, b :: t, h => by
    simp only [pack] at h
    obtain ⟨h1, h2⟩ := pow_odd _ _ _ _ h
    rw [h1, pack_inj s t h2]

/-- Natural numbers as values, and names of one letter. -/
def exC : Coding Bool :=
  ⟨pack, fun n => if n = pack [97] then [97] else [98], fun v => match v with | .int n => n.natAbs | _ => 1000, fun r => .int r⟩

/-- The tool `f(a, *, b=...)`, for values below 100. -/
def exW : World := ⟨fun _ => ⟨7, [⟨pack [97], .posOrKw, 0, false⟩, ⟨pack [98], .kwOnly, 0, true⟩]⟩,
  fun _ r => if r < 100 then some r else none, fun v => match v with | .one v => some v | .kwargs _ => none⟩

example : exC.Inj := pack_inj

/-- The values that are bound. -/
def shown : Except Err Decoded → Option (List (Nat × ToolCalls.BVal))
  | .ok d => some d.bound
  | .error _ => none

/-- The error. -/
def failed : Except Err Decoded → Option Err
  | .ok _ => none
  | .error e => some e

def exCall (s : String) : TextCall := ⟨5, 7, JsonText.txt s⟩

example : shown (decodeText exW exC JsonText.exF [(7, .tool 0)] (exCall "{\"b\": 4, \"\\u0061\":3 }")) =
    some [(pack [97], .one 3), (pack [98], .one 4)] := by decide +kernel
example : shown (decodeText exW exC JsonText.exF [(7, .tool 0)] (exCall "{\"a\": 3, \"b\": 4}")) =
    some [(pack [97], .one 3), (pack [98], .one 4)] := by decide +kernel
example : failed (decodeText exW exC JsonText.exF [(7, .tool 0)] (exCall "{\"a\": 3,}")) = some .json := by decide +kernel
example : failed (decodeText exW exC JsonText.exF [(7, .tool 0)] (exCall "[3]")) = some .noItems := by decide +kernel
example : failed (decodeText exW exC JsonText.exF [(8, .tool 0)] (exCall "[3")) = some (.call .key) := by decide +kernel
example : failed (decodeText exW exC JsonText.exF [(7, .tool 0)] (exCall "{\"a\": 3, \"c\": 4}")) = some (.call .unexpected) := by decide +kernel
example : failed (decodeText exW exC JsonText.exF [(7, .tool 0)] (exCall "{\"b\": 4}")) = some (.call .bind) := by decide +kernel
example : (encodeText exW exC JsonText.exF ⟨0, [(pack [97], .one 3), (pack [98], .one 4)], 5, 7⟩).map (·.args) =
    some (JsonText.txt "{\"a\": 3, \"b\": 4}") := by decide +kernel

/-- The hypotheses of the round trip. -/
example : Plain (exW.tools 0).params ∧ (exW.tools 0).name = 7 ∧
    (∀ v r, exW.dump v = some r → exC.raw (exC.val r) = r ∧ Ok (exC.val r)) ∧
    ∀ p ∈ (exW.tools 0).params, exC.num (exC.name p.name) = p.name ∧ StrOk (exC.name p.name) := by
  refine ⟨⟨by intro p hp; simp [exW] at hp; rcases hp with rfl | rfl <;> simp, by decide +kernel⟩, rfl, ?_, ?_⟩
  · intro v r _
    exact ⟨by simp [exC], by simp [exC, Ok]⟩
  · intro p hp
    simp only [exW, List.mem_cons, List.not_mem_nil, or_false] at hp
    rcases hp with rfl | rfl
    · exact ⟨by decide +kernel, by simp [exC, StrOk]⟩
    · have hne : pack [98] ≠ pack [97] := by decide +kernel
      exact ⟨by simp [exC, hne], by simp [exC, hne, StrOk]⟩

/-- An argument that is given twice is not rejected: the last value counts. -/
theorem C115_repeated_fails : ∃ (W : World) (C : Coding Bool) (ctx : Ctx) (c : TextCall), C.Inj ∧ ToolCalls.IsDict ctx ∧
    c.args = JsonText.txt "{\"a\": 3, \"a\": 4}" ∧ shown (decodeText W C JsonText.exF ctx c) = some [(C.num [97], .one 4)] :=
  ⟨exW, exC, [(7, .tool 0)], exCall "{\"a\": 3, \"a\": 4}", pack_inj, by unfold ToolCalls.IsDict; decide, rfl, by decide +kernel⟩

end Verif.Llm.CallText
