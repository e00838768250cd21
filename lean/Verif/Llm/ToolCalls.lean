/-!
# C63: tool calls

Model of `_validate_tool_call`, `_serialize_tool_call` and the name `_serialize_tool` advertises
(`handlers/llm/encoding.py` 693-789).

* Names, types and tools are numbers. The codecs are arbitrary: `load ty raw` is `validate_python` at a parameter's
  annotation, `dump v` is `dump_python` at the type `nested_type` finds for the value.
* The context is a dict: a list without repeated names, of tools and other objects. The arguments of a call are the dict that
  `json.loads` gives.
* `sig.bind(**kwargs)` (`inspect.Signature.bind`) as far as it can be reached: without positional arguments, and with names of
  parameters only. A positional-only parameter with a default that is given by name is left over.
-/

namespace Verif.ToolCalls

inductive Kind where
  | posOnly
  | posOrKw
  | varPos
  | kwOnly
  | varKw
deriving DecidableEq

structure Param where
  name : Nat
  kind : Kind
  ty : Nat
  default : Bool
deriving DecidableEq

/-- A tool: `__name__` and the signature. -/
structure ToolDef where
  name : Nat
  params : List Param

/-- An object of the context. -/
inductive CtxObj where
  | tool (t : Nat)
  | other (n : Nat)
deriving DecidableEq

abbrev Ctx := List (Nat × CtxObj)

/-- A bound argument: a value, or the dict of a `**kwargs`. -/
inductive BVal where
  | one (v : Nat)
  | kwargs (l : List (Nat × Nat))
deriving DecidableEq

/-- What tools there are, and the codecs. -/
structure World where
  tools : Nat → ToolDef
  load : Nat → Nat → Option Nat
  dump : BVal → Option Nat

/-- The tool call of the API: id, name and arguments. -/
structure Call where
  id : Nat
  name : Nat
  args : List (Nat × Nat)
deriving DecidableEq

/-- `DecodedToolCall`. -/
structure Decoded where
  tool : Nat
  bound : List (Nat × BVal)
  id : Nat
  name : Nat
deriving DecidableEq

inductive CallErr where
  | key
  | notTool
  | unexpected
  | value
  | bind
deriving DecidableEq

/-- The loop over the arguments (751-761). -/
def decodeArgs (W : World) (ps : List Param) : List (Nat × Nat) → Except CallErr (List (Nat × Nat))
  | [] => .ok []
  | (n, raw) :: as =>
    match ps.find? (fun p => p.name == n) with
    | none => .error .unexpected
    | some p =>
      match W.load p.ty raw with
      | none => .error .value
      | some v =>
        match decodeArgs W ps as with
        | .error e => .error e
        | .ok r => .ok ((n, v) :: r)

/-- The loops of `Signature.bind` over the parameters: the arguments bound by name, `none` for `TypeError`. -/
def bindNamed (kw : List (Nat × Nat)) : List Param → Option (List (Nat × BVal))
  | [] => some []
  | p :: ps =>
    match p.kind with
    | .varPos => bindNamed kw ps
    | .varKw => bindNamed kw ps
    | .posOnly => if p.default then bindNamed kw ps else none
    | _ =>
      match kw.lookup p.name with
      | some v => (bindNamed kw ps).map ((p.name, .one v) :: ·)
      | none => if p.default then bindNamed kw ps else none

/-- The parameters that are bound by name. -/
def Param.named (p : Param) : Bool := p.kind == .posOrKw || p.kind == .kwOnly

/-- `sig.bind(**kw)`. -/
def bind (ps : List Param) (kw : List (Nat × Nat)) : Option (List (Nat × BVal)) :=
  match bindNamed kw ps with
  | none => none
  | some r =>
    match kw.filter (fun x => !(ps.any (fun p => p.named && p.name == x.1))) with
    | [] => some r
    | l =>
      match ps.find? (fun p => p.kind == .varKw) with
      | some p => some (r ++ [(p.name, .kwargs l)])
      | none => none

/-- `_validate_tool_call` (741-767). -/
def decode (W : World) (ctx : Ctx) (c : Call) : Except CallErr Decoded :=
  match ctx.lookup c.name with
  | none => .error .key
  | some (.other _) => .error .notTool
  | some (.tool t) =>
    match decodeArgs W (W.tools t).params c.args with
    | .error e => .error e
    | .ok kw =>
      match bind (W.tools t).params kw with
      | none => .error .bind
      | some b => .ok ⟨t, b, c.id, c.name⟩

/-- The loop of `_serialize_tool_call`. -/
def dumpAll (W : World) : List (Nat × BVal) → Option (List (Nat × Nat))
  | [] => some []
  | (n, v) :: l =>
    match W.dump v, dumpAll W l with
    | some r, some rs => some ((n, r) :: rs)
    | _, _ => none

/-- `_serialize_tool_call` (770-789). -/
def encode (W : World) (d : Decoded) : Option Call :=
  (dumpAll W d.bound).map (fun as => ⟨d.id, (W.tools d.tool).name, as⟩)

/-- The name `_serialize_tool` advertises a tool under (709-715). -/
def advertised (W : World) (ctx : Ctx) (t : Nat) : Nat :=
  match ctx.find? (fun x => x.2 == .tool t) with
  | some x => x.1
  | none => (W.tools t).name

/-! ## What is stated -/

/-- Tools whose parameters can all be given by name. -/
def Plain (ps : List Param) : Prop := (∀ p ∈ ps, p.kind = .posOrKw ∨ p.kind = .kwOnly) ∧ (ps.map (·.name)).Nodup

/-- A dict. -/
def IsDict {β : Type} (l : List (Nat × β)) : Prop := (l.map Prod.fst).Nodup

/-- A call that fits the parameters: every argument is a parameter and has a value of its type; required ones are there. -/
structure Fits (W : World) (ps : List Param) (args : List (Nat × Nat)) : Prop where
  known : ∀ n raw, (n, raw) ∈ args → ∃ p ∈ ps, p.name = n ∧ ∃ v, W.load p.ty raw = some v
  complete : ∀ p ∈ ps, p.default = false → ∃ raw, (p.name, raw) ∈ args

/-- `b` binds, in the order of the parameters, each one that is given to the value of its argument. -/
inductive Binds (W : World) (args : List (Nat × Nat)) : List Param → List (Nat × BVal) → Prop where
  | nil : Binds W args [] []
  | given {p ps b raw v} : (p.name, raw) ∈ args → W.load p.ty raw = some v → Binds W args ps b →
      Binds W args (p :: ps) ((p.name, .one v) :: b)
  | left {p ps b} : (∀ raw, (p.name, raw) ∉ args) → Binds W args ps b → Binds W args (p :: ps) b

/-! ## Proofs -/

theorem lookup_iff {β : Type} {l : List (Nat × β)} (h : IsDict l) (n : Nat) (v : β) : l.lookup n = some v ↔ (n, v) ∈ l := by
  unfold IsDict at h
  induction l with
  | nil => simp
  | cons x l ih =>
    obtain ⟨m, w⟩ := x
    rw [List.map_cons, List.nodup_cons] at h
    by_cases e : n = m
    · subst e
      simp only [List.lookup_cons, beq_self_eq_true, Option.some.injEq, List.mem_cons, Prod.mk.injEq, true_and]
      constructor
      · rintro rfl; exact .inl rfl
      · rintro (e | hm)
        · exact e.symm
        · exact absurd (List.mem_map_of_mem (f := Prod.fst) hm) h.1
    · have : (n == m) = false := by simp [e]
      simp only [List.lookup_cons, this, List.mem_cons, Prod.mk.injEq, e, false_and, false_or]
      exact ih h.2

theorem lookup_none_iff {β : Type} (l : List (Nat × β)) (n : Nat) : l.lookup n = none ↔ ∀ v, (n, v) ∉ l := by
  induction l with
  | nil => simp
  | cons x l ih =>
    obtain ⟨m, w⟩ := x
    by_cases e : n = m
    · subst e
      simp only [List.lookup_cons, beq_self_eq_true, reduceCtorEq, false_iff]
      intro h
      exact h w (List.mem_cons_self ..)
    · have : (n == m) = false := by simp [e]
      simp [List.lookup_cons, this, ih, e]

theorem find_param {ps : List Param} (h : (ps.map (·.name)).Nodup) {p : Param} (hp : p ∈ ps) :
    ps.find? (fun q => q.name == p.name) = some p := by
  induction ps with
  | nil => simp at hp
  | cons q ps ih =>
    rw [List.map_cons, List.nodup_cons] at h
    rcases List.mem_cons.1 hp with rfl | hp
    · simp
    · have hne : q.name ≠ p.name := fun e => h.1 (e ▸ List.mem_map_of_mem (f := (·.name)) hp)
      rw [List.find?_cons_of_neg (by simpa using hne)]
      exact ih h.2 hp

/-- The loop decodes each argument. -/
theorem decodeArgs_ok {W : World} {ps : List Param} (hn : (ps.map (·.name)).Nodup) {args kw : List (Nat × Nat)} :
    decodeArgs W ps args = .ok kw →
      kw.map Prod.fst = args.map Prod.fst ∧
      (∀ n raw, (n, raw) ∈ args → ∃ p ∈ ps, p.name = n ∧ ∃ v, W.load p.ty raw = some v) ∧
      (∀ p ∈ ps, ∀ v, (p.name, v) ∈ kw → ∃ raw, (p.name, raw) ∈ args ∧ W.load p.ty raw = some v) := by
  induction args generalizing kw with
  | nil => intro h; rw [decodeArgs] at h; cases h; simp
  | cons x args ih =>
    obtain ⟨n, raw⟩ := x
    intro h
    rw [decodeArgs] at h
    cases hf : ps.find? (fun p => p.name == n) with
    | none => rw [hf] at h; cases h
    | some p =>
      simp only [hf] at h
      cases hl : W.load p.ty raw with
      | none => rw [hl] at h; cases h
      | some v =>
        simp only [hl] at h
        cases hr : decodeArgs W ps args with
        | error e => rw [hr] at h; cases h
        | ok r =>
          simp only [hr] at h
          cases h
          obtain ⟨h1, h2, h3⟩ := ih hr
          have hpm := List.mem_of_find?_eq_some hf
          have hpn : p.name = n := by simpa using List.find?_some hf
          refine ⟨by simp [h1], ?_, ?_⟩
          · intro n' raw' hm
            rcases List.mem_cons.1 hm with e | hm
            · cases e; exact ⟨p, hpm, hpn, v, hl⟩
            · exact h2 n' raw' hm
          · intro q hq w hm
            rcases List.mem_cons.1 hm with e | hm
            · simp only [Prod.mk.injEq] at e
              have : q = p := by
                have := find_param hn hq
                rw [show q.name = n from e.1, hf] at this
                exact (Option.some.inj this).symm
              subst this
              exact ⟨raw, by rw [e.1]; simp, by rw [e.2]; exact hl⟩
            · obtain ⟨raw', h4, h5⟩ := h3 q hq w hm
              exact ⟨raw', List.mem_cons_of_mem _ h4, h5⟩

theorem decodeArgs_of_fits {W : World} {ps : List Param} (hn : (ps.map (·.name)).Nodup) {args : List (Nat × Nat)}
    (h : ∀ n raw, (n, raw) ∈ args → ∃ p ∈ ps, p.name = n ∧ ∃ v, W.load p.ty raw = some v) :
    ∃ kw, decodeArgs W ps args = .ok kw := by
  induction args with
  | nil => exact ⟨[], rfl⟩
  | cons x args ih =>
    obtain ⟨n, raw⟩ := x
    obtain ⟨p, hp, hpn, v, hv⟩ := h n raw (by simp)
    obtain ⟨kw, hk⟩ := ih (fun n raw hm => h n raw (List.mem_cons_of_mem _ hm))
    refine ⟨(n, v) :: kw, ?_⟩
    rw [decodeArgs, ← hpn, find_param hn hp]
    simp [hv, hk]

theorem bindNamed_plain {W : World} {args kw : List (Nat × Nat)} (hd : IsDict kw) {all : List Param}
    (hm : ∀ p ∈ all, ∀ v, (p.name, v) ∈ kw → ∃ raw, (p.name, raw) ∈ args ∧ W.load p.ty raw = some v)
    (hk : kw.map Prod.fst = args.map Prod.fst) :
    ∀ ps : List Param, (∀ p ∈ ps, p ∈ all) → (∀ p ∈ ps, p.kind = .posOrKw ∨ p.kind = .kwOnly) →
      ((∀ p ∈ ps, p.default = false → ∃ raw, (p.name, raw) ∈ args) ↔ (bindNamed kw ps).isSome = true) ∧
      ∀ b, bindNamed kw ps = some b → Binds W args ps b := by
  intro ps
  have given : ∀ n, (∃ raw, (n, raw) ∈ args) ↔ ∃ v, (n, v) ∈ kw := by
    intro n
    have h1 : n ∈ kw.map Prod.fst ↔ n ∈ args.map Prod.fst := by rw [hk]
    simpa using h1.symm
  induction ps with
  | nil => intro _ _; exact ⟨by simp [bindNamed], fun b h => by rw [bindNamed] at h; cases h; exact .nil⟩
  | cons p ps ih =>
    intro hall hkind
    obtain ⟨h1, h2⟩ := ih (fun q hq => hall q (by simp [hq])) (fun q hq => hkind q (by simp [hq]))
    have hb : bindNamed kw (p :: ps) = match kw.lookup p.name with
        | some v => (bindNamed kw ps).map ((p.name, .one v) :: ·)
        | none => if p.default then bindNamed kw ps else none := by
      rw [bindNamed]
      rcases hkind p (by simp) with e | e <;> rw [e]
    rw [hb]
    simp only [List.forall_mem_cons]
    cases hl : kw.lookup p.name with
    | some v =>
      have hmem := (lookup_iff hd _ _).1 hl
      obtain ⟨raw, hr, hv⟩ := hm p (hall p (by simp)) v hmem
      refine ⟨?_, ?_⟩
      · rw [Option.isSome_map, ← h1]
        exact ⟨fun h => h.2, fun h => ⟨fun _ => ⟨raw, hr⟩, h⟩⟩
      · intro b h
        simp only [Option.map_eq_some_iff] at h
        obtain ⟨b', hb', rfl⟩ := h
        exact .given hr hv (h2 b' hb')
    | none =>
      have hno := (lookup_none_iff _ _).1 hl
      have hna : ∀ raw, (p.name, raw) ∉ args := by
        intro raw hr
        obtain ⟨v, hv⟩ := (given p.name).1 ⟨raw, hr⟩
        exact hno v hv
      by_cases hdef : p.default = true
      · simp only [hdef, if_true]
        refine ⟨?_, fun b h => .left hna (h2 b h)⟩
        rw [← h1]
        simp
      · have hdef' : p.default = false := by simpa using hdef
        simp only [hdef', Bool.false_eq_true, if_false, Option.isSome_none, iff_false, forall_const]
        refine ⟨?_, fun b h => by cases h⟩
        intro h
        obtain ⟨raw, hr⟩ := h.1
        exact hna raw hr

theorem bind_eq {ps : List Param} {kw : List (Nat × Nat)}
    (h : kw.filter (fun x => !(ps.any (fun p => p.named && p.name == x.1))) = []) : bind ps kw = bindNamed kw ps := by
  unfold bind
  rw [h]
  cases bindNamed kw ps <;> rfl

/-- A call of a tool with plain parameters is decoded exactly if it fits them, to the tool of that name and with each parameter
bound to the value of its argument. -/
theorem C63_decode (W : World) (ctx : Ctx) (c : Call) (t : Nat) (hc : IsDict ctx) (ht : (c.name, .tool t) ∈ ctx)
    (hp : Plain (W.tools t).params) (ha : IsDict c.args) :
    ((∃ d, decode W ctx c = .ok d) ↔ Fits W (W.tools t).params c.args) ∧
    ∀ d, decode W ctx c = .ok d →
      d.tool = t ∧ d.id = c.id ∧ d.name = c.name ∧ Binds W c.args (W.tools t).params d.bound := by
  unfold decode
  rw [(lookup_iff hc _ _).2 ht]
  simp only
  cases hk : decodeArgs W (W.tools t).params c.args with
  | error e =>
    refine ⟨⟨by simp, ?_⟩, by simp⟩
    intro h
    obtain ⟨kw, hk'⟩ := decodeArgs_of_fits hp.2 h.known
    rw [hk] at hk'
    cases hk'
  | ok kw =>
    obtain ⟨h1, h2, h3⟩ := decodeArgs_ok hp.2 hk
    have hd : IsDict kw := by unfold IsDict; rw [h1]; exact ha
    obtain ⟨h4, h5⟩ := bindNamed_plain hd h3 h1 _ (fun _ h => h) hp.1
    have hnone : kw.filter (fun x => !((W.tools t).params.any (fun p => p.named && p.name == x.1))) = [] := by
      rw [List.filter_eq_nil_iff]
      rintro ⟨n, v⟩ hx
      have : n ∈ c.args.map Prod.fst := by rw [← h1]; exact List.mem_map_of_mem (f := Prod.fst) hx
      obtain ⟨⟨n', raw⟩, hm, rfl⟩ := List.mem_map.1 this
      obtain ⟨p, hpm, hpn, -⟩ := h2 n' raw hm
      simp only [Bool.not_eq_true', Bool.not_eq_false, List.any_eq_true, Bool.and_eq_true, beq_iff_eq]
      refine ⟨p, hpm, ?_, hpn⟩
      rcases hp.1 p hpm with e | e <;> simp [Param.named, e]
    simp only [bind_eq hnone]
    cases hb : bindNamed kw (W.tools t).params with
    | none =>
      rw [hb] at h4
      refine ⟨⟨by simp, ?_⟩, by simp⟩
      intro h
      exact absurd (h4.1 h.complete) (by simp)
    | some b =>
      rw [hb] at h4
      refine ⟨⟨fun _ => ⟨h2, h4.2 (by simp)⟩, fun _ => ⟨_, rfl⟩⟩, ?_⟩
      intro d hd
      cases hd
      exact ⟨rfl, rfl, rfl, h5 b hb⟩

/-- A tool of the context is advertised under a name that decodes to it. -/
theorem C63_advertised (W : World) (ctx : Ctx) (t : Nat) (hc : IsDict ctx) (n : Nat) (ht : (n, .tool t) ∈ ctx) :
    ctx.lookup (advertised W ctx t) = some (.tool t) := by
  unfold advertised
  cases hf : ctx.find? (fun x => x.2 == .tool t) with
  | none =>
    rw [List.find?_eq_none] at hf
    exact absurd (by simp) (hf _ ht)
  | some x =>
    have h1 := List.mem_of_find?_eq_some hf
    have h2 : x.2 = .tool t := by simpa using List.find?_some hf
    rw [lookup_iff hc]
    obtain ⟨a, b⟩ := x
    simp only at h2
    rw [← h2]
    exact h1

theorem binds_names {W : World} {args : List (Nat × Nat)} {ps : List Param} {b : List (Nat × BVal)} (h : Binds W args ps b) :
    (b.map Prod.fst).Sublist (ps.map (·.name)) := by
  induction h with
  | nil => exact .slnil
  | given _ _ _ ih => exact ih.cons_cons _
  | left _ _ ih => exact ih.cons _

/-- Encoding and decoding again. -/
theorem round_trip_aux {W : World} {ps : List Param} (hn : (ps.map (·.name)).Nodup) {args : List (Nat × Nat)}
    (hcodec : ∀ p ∈ ps, ∀ raw v, (p.name, raw) ∈ args → W.load p.ty raw = some v →
      ∃ r, W.dump (.one v) = some r ∧ W.load p.ty r = some v) :
    ∀ {qs b}, Binds W args qs b → (∀ q ∈ qs, q ∈ ps) →
      ∃ as kw, dumpAll W b = some as ∧ decodeArgs W ps as = .ok kw ∧ b = kw.map (fun x => (x.1, .one x.2)) := by
  intro qs b h
  induction h with
  | nil => intro _; exact ⟨[], [], rfl, rfl, rfl⟩
  | @given p qs b raw v hr hv _ ih =>
    intro hq
    obtain ⟨as, kw, h1, h2, h3⟩ := ih (fun q hm => hq q (by simp [hm]))
    obtain ⟨r, hd, hl⟩ := hcodec p (hq p (by simp)) raw v hr hv
    refine ⟨(p.name, r) :: as, (p.name, v) :: kw, ?_, ?_, ?_⟩
    · simp [dumpAll, hd, h1]
    · rw [decodeArgs, find_param hn (hq p (by simp))]
      simp [hl, h2]
    · simp [h3]
  | left _ _ ih => intro hq; exact ih (fun q hm => hq q (by simp [hm]))

theorem bindNamed_self {W : World} {args : List (Nat × Nat)} :
    ∀ {qs b}, Binds W args qs b → (∀ p ∈ qs, p.kind = .posOrKw ∨ p.kind = .kwOnly) → (qs.map (·.name)).Nodup →
      (∀ p ∈ qs, p.default = false → ∃ raw, (p.name, raw) ∈ args) →
      ∀ kw : List (Nat × Nat), IsDict kw → (∀ n v, n ∈ qs.map (·.name) → ((n, v) ∈ kw ↔ (n, .one v) ∈ b)) →
        bindNamed kw qs = some b := by
  intro qs b h
  induction h with
  | nil => intro _ _ _ kw _ _; rfl
  | @given p qs b raw v hr hv hb ih =>
    intro hk hn hreq kw hd hiff
    rw [List.map_cons, List.nodup_cons] at hn
    have hnb : ∀ v, (p.name, v) ∉ b := fun v hm =>
      hn.1 ((binds_names hb).subset (List.mem_map_of_mem (f := Prod.fst) hm))
    have hl : kw.lookup p.name = some v := (lookup_iff hd _ _).2 ((hiff p.name v (by simp)).2 (by simp))
    have hrest := ih (fun q hq => hk q (by simp [hq])) hn.2 (fun q hq => hreq q (by simp [hq])) kw hd (by
      intro n w hm
      rw [hiff n w (by simp only [List.map_cons]; exact List.mem_cons_of_mem _ hm), List.mem_cons]
      have : n ≠ p.name := fun e => hn.1 (e ▸ hm)
      simp [this])
    rw [bindNamed]
    rcases hk p (by simp) with e | e <;> simp [e, hl, hrest]
  | @left p qs b hno hb ih =>
    intro hk hn hreq kw hd hiff
    rw [List.map_cons, List.nodup_cons] at hn
    have hnb : ∀ v, (p.name, v) ∉ b := fun v hm =>
      hn.1 ((binds_names hb).subset (List.mem_map_of_mem (f := Prod.fst) hm))
    have hl : kw.lookup p.name = none := (lookup_none_iff _ _).2 (fun v hm => hnb _ ((hiff p.name v (by simp)).1 hm))
    have hdef : p.default = true := by
      cases hdd : p.default with
      | true => rfl
      | false =>
        obtain ⟨raw, hr⟩ := hreq p (by simp) hdd
        exact absurd hr (hno raw)
    have hrest := ih (fun q hq => hk q (by simp [hq])) hn.2 (fun q hq => hreq q (by simp [hq])) kw hd (by
      intro n w hm
      exact hiff n w (by simp only [List.map_cons]; exact List.mem_cons_of_mem _ hm))
    rw [bindNamed]
    rcases hk p (by simp) with e | e <;> simp [e, hl, hrest, hdef]

/-- A decoded call can be encoded and decoded again to the same, if the tool's own name is its name in the context, and the
codecs give back values of the parameters when encoded by their own type. -/
theorem C63_round_trip_partial (W : World) (ctx : Ctx) (c : Call) (t : Nat) (hc : IsDict ctx) (ht : (c.name, .tool t) ∈ ctx)
    (hp : Plain (W.tools t).params) (ha : IsDict c.args) (d : Decoded) (hd : decode W ctx c = .ok d)
    (hname : (W.tools t).name = c.name)
    (hcodec : ∀ p ∈ (W.tools t).params, ∀ raw v, (p.name, raw) ∈ c.args → W.load p.ty raw = some v →
      ∃ r, W.dump (.one v) = some r ∧ W.load p.ty r = some v) :
    ∃ c', encode W d = some c' ∧ decode W ctx c' = .ok d := by
  obtain ⟨h1, h2⟩ := C63_decode W ctx c t hc ht hp ha
  obtain ⟨e1, e2, e3, hb⟩ := h2 d hd
  have hf := h1.1 ⟨d, hd⟩
  obtain ⟨as, kw, h3, h4, h5⟩ := round_trip_aux hp.2 hcodec hb (fun _ h => h)
  refine ⟨⟨d.id, (W.tools d.tool).name, as⟩, by unfold encode; rw [h3]; rfl, ?_⟩
  unfold decode
  simp only
  rw [e1, hname, (lookup_iff hc _ _).2 ht]
  simp only [h4]
  have hkd : IsDict kw := by
    have := (binds_names hb).nodup hp.2
    rw [h5, List.map_map] at this
    exact this
  have hbn : bindNamed kw (W.tools t).params = some d.bound := by
    refine bindNamed_self hb hp.1 hp.2 hf.complete kw hkd ?_
    intro n v _
    rw [h5]
    simp
  have hnone : kw.filter (fun x => !((W.tools t).params.any (fun p => p.named && p.name == x.1))) = [] := by
    rw [List.filter_eq_nil_iff]
    rintro ⟨n, v⟩ hx
    have hm : n ∈ (W.tools t).params.map (·.name) := by
      refine (binds_names hb).subset ?_
      rw [h5, List.map_map]
      exact List.mem_map.2 ⟨(n, v), hx, rfl⟩
    obtain ⟨p, hpm, hpn⟩ := List.mem_map.1 hm
    simp only [Bool.not_eq_true', Bool.not_eq_false, List.any_eq_true, Bool.and_eq_true, beq_iff_eq]
    refine ⟨p, hpm, ?_, hpn⟩
    rcases hp.1 p hpm with e | e <;> simp [Param.named, e]
  rw [bind_eq hnone, hbn]
  simp only [← e1, ← e3]

/-- An encoded call has all the bound arguments, encoded. -/
theorem C63_encode (W : World) (d : Decoded) (c : Call) (h : encode W d = some c) :
    c.id = d.id ∧ c.args.map Prod.fst = d.bound.map Prod.fst ∧
    ∀ (i : Nat) (n r : Nat), c.args[i]? = some (n, r) → ∃ v, d.bound[i]? = some (n, v) ∧ W.dump v = some r := by
  unfold encode at h
  simp only [Option.map_eq_some_iff] at h
  obtain ⟨as, ha, rfl⟩ := h
  refine ⟨rfl, ?_⟩
  simp only
  revert ha
  generalize d.bound = b
  induction b generalizing as with
  | nil => intro h; rw [dumpAll] at h; cases h; simp
  | cons x b ih =>
    obtain ⟨n, v⟩ := x
    intro h
    rw [dumpAll] at h
    cases hv : W.dump v with
    | none => simp [hv] at h
    | some r =>
      cases hb : dumpAll W b with
      | none => simp [hv, hb] at h
      | some rs =>
        simp only [hv, hb, Option.some.injEq] at h
        subst h
        obtain ⟨h1, h2⟩ := ih rs hb
        refine ⟨by simp [h1], ?_⟩
        intro i n' r' hi
        cases i with
        | zero => simp at hi; exact ⟨v, by simp [hi.1], by rw [hv, hi.2]⟩
        | succ i => simpa using h2 i n' r' (by simpa using hi)

theorem decodeArgs_prefix {W : World} {ps : List Param} (hn : (ps.map (·.name)).Nodup) {pre : List (Nat × Nat)}
    (h : ∀ n raw, (n, raw) ∈ pre → ∃ p ∈ ps, p.name = n ∧ ∃ v, W.load p.ty raw = some v) (rest : List (Nat × Nat)) (e : CallErr)
    (hr : decodeArgs W ps rest = .error e) : decodeArgs W ps (pre ++ rest) = .error e := by
  induction pre with
  | nil => exact hr
  | cons x pre ih =>
    obtain ⟨n, raw⟩ := x
    obtain ⟨p, hp, hpn, v, hv⟩ := h n raw (by simp)
    have := ih (fun n raw hm => h n raw (List.mem_cons_of_mem _ hm))
    rw [List.cons_append, decodeArgs, ← hpn, find_param hn hp]
    simp [hv, this]

/-- Which error is raised: for an unknown name, for something that is not a tool, and for the first of the arguments that
is not a parameter or not a value of the type. A call whose arguments are all fine fails for a missing one. -/
theorem C63_errors (W : World) (ctx : Ctx) (c : Call) (hc : IsDict ctx) :
    ((∀ o, (c.name, o) ∉ ctx) → decode W ctx c = .error .key) ∧
    (∀ o, (c.name, .other o) ∈ ctx → decode W ctx c = .error .notTool) ∧
    ∀ t, (c.name, .tool t) ∈ ctx → ((W.tools t).params.map (·.name)).Nodup →
      (∀ pre n raw post, c.args = pre ++ (n, raw) :: post →
        (∀ n raw, (n, raw) ∈ pre → ∃ p ∈ (W.tools t).params, p.name = n ∧ ∃ v, W.load p.ty raw = some v) →
        ((∀ p ∈ (W.tools t).params, p.name ≠ n) → decode W ctx c = .error .unexpected) ∧
        (∀ p ∈ (W.tools t).params, p.name = n → W.load p.ty raw = none → decode W ctx c = .error .value)) ∧
      ((∀ n raw, (n, raw) ∈ c.args → ∃ p ∈ (W.tools t).params, p.name = n ∧ ∃ v, W.load p.ty raw = some v) →
        ∀ e, decode W ctx c = .error e → e = .bind) := by
  refine ⟨?_, ?_, ?_⟩
  · intro h
    rw [decode, (lookup_none_iff _ _).2 h]
  · intro o h
    rw [decode, (lookup_iff hc _ _).2 h]
  · intro t ht hn
    have hd : ∀ e, decodeArgs W (W.tools t).params c.args = .error e → decode W ctx c = .error e := by
      intro e h
      rw [decode, (lookup_iff hc _ _).2 ht]
      simp only [h]
    refine ⟨?_, ?_⟩
    · intro pre n raw post hargs hpre
      refine ⟨?_, ?_⟩
      · intro hno
        refine hd _ ?_
        rw [hargs]
        refine decodeArgs_prefix hn hpre _ _ ?_
        have : (W.tools t).params.find? (fun p => p.name == n) = none := by
          rw [List.find?_eq_none]
          intro p hp
          simpa using hno p hp
        rw [decodeArgs, this]
      · intro p hp hpn hl
        refine hd _ ?_
        rw [hargs]
        refine decodeArgs_prefix hn hpre _ _ ?_
        rw [decodeArgs, ← hpn, find_param hn hp]
        simp only [hl]
    · intro h e he
      obtain ⟨kw, hk⟩ := decodeArgs_of_fits hn h
      rw [decode, (lookup_iff hc _ _).2 ht] at he
      simp only [hk] at he
      split at he
      · cases he; rfl
      · cases he

/-! ## Examples -/

namespace ToolExample

/-- Tool 0 has name 7 and parameters 1 (required) and 2; the values of type 0 are below 100. -/
def W : World := ⟨fun t =>
  if t = 0 then ⟨7, [⟨1, .posOrKw, 0, false⟩, ⟨2, .kwOnly, 0, true⟩]⟩
  else if t = 1 then ⟨8, [⟨1, .posOnly, 0, false⟩]⟩
  else ⟨9, [⟨3, .varKw, 0, false⟩]⟩,
  fun _ r => if r < 100 then some r else none, fun v => match v with | .one v => some v | .kwargs _ => none⟩

example : decode W [(7, .tool 0)] ⟨5, 7, [(2, 4), (1, 3)]⟩ = .ok ⟨0, [(1, .one 3), (2, .one 4)], 5, 7⟩ := rfl
example : decode W [(7, .tool 0)] ⟨5, 7, [(2, 4)]⟩ = .error .bind := rfl
example : decode W [(7, .tool 0)] ⟨5, 7, [(1, 400)]⟩ = .error .value := rfl
example : decode W [(7, .tool 0)] ⟨5, 8, []⟩ = .error .key := rfl
example : decode W [(7, .tool 0), (8, .other 0)] ⟨5, 8, []⟩ = .error .notTool := rfl
example : decode W [(7, .tool 0)] ⟨5, 7, [(1, 3), (3, 4), (2, 400)]⟩ = .error .unexpected := rfl
example : encode W ⟨0, [(1, .one 3), (2, .one 4)], 5, 7⟩ = some ⟨5, 7, [(1, 3), (2, 4)]⟩ := rfl

end ToolExample

open ToolExample

/-- A call under a name of the context that is not the tool's own cannot be decoded again after encoding. -/
theorem C63_name_fails : ∃ (W : World) (ctx : Ctx) (c : Call) (d : Decoded) (c' : Call), IsDict ctx ∧ IsDict c.args ∧
    decode W ctx c = .ok d ∧ encode W d = some c' ∧ decode W ctx c' = .error .key :=
  ⟨W, [(20, .tool 0)], ⟨5, 20, [(1, 3)]⟩, ⟨0, [(1, .one 3)], 5, 20⟩, ⟨5, 7, [(1, 3)]⟩, by unfold IsDict; decide,
    by unfold IsDict; decide, rfl, rfl, rfl⟩

/-- Or is decoded to a call of another tool. -/
theorem C63_other_fails : ∃ (W : World) (ctx : Ctx) (c : Call) (d : Decoded) (c' : Call) (d' : Decoded), IsDict ctx ∧
    IsDict c.args ∧ decode W ctx c = .ok d ∧ encode W d = some c' ∧ decode W ctx c' = .ok d' ∧ d'.tool ≠ d.tool :=
  ⟨⟨fun t => if t = 0 then ⟨7, [⟨1, .posOrKw, 0, false⟩]⟩ else ⟨8, [⟨1, .posOrKw, 0, false⟩]⟩, fun _ r => some r,
    fun v => match v with | .one v => some v | .kwargs _ => none⟩, [(7, .tool 1), (20, .tool 0)], ⟨5, 20, [(1, 3)]⟩,
    ⟨0, [(1, .one 3)], 5, 20⟩, ⟨5, 7, [(1, 3)]⟩, ⟨1, [(1, .one 3)], 5, 7⟩, by unfold IsDict; decide, by unfold IsDict; decide,
    rfl, rfl, rfl, by decide⟩

/-- A tool with a required positional-only parameter can never be called. -/
theorem C63_positional_fails (W : World) (ctx : Ctx) (c : Call) (t : Nat) (hc : IsDict ctx) (ht : (c.name, .tool t) ∈ ctx)
    (p : Param) (hp : p ∈ (W.tools t).params) (hk : p.kind = .posOnly) (hd : p.default = false) :
    ∀ d, decode W ctx c ≠ .ok d := by
  have hb : ∀ (kw : List (Nat × Nat)) (ps : List Param), p ∈ ps → bindNamed kw ps = none := by
    intro kw ps
    induction ps with
    | nil => intro h; simp at h
    | cons q ps ih =>
      intro h
      rcases List.mem_cons.1 h with rfl | h
      · simp [bindNamed, hk, hd]
      · rw [bindNamed]
        have := ih h
        split <;> try exact this
        · simp [this]
        · split <;> simp [this]
  intro d h
  unfold decode at h
  rw [(lookup_iff hc _ _).2 ht] at h
  simp only at h
  cases hk' : decodeArgs W (W.tools t).params c.args with
  | error e => rw [hk'] at h; cases h
  | ok kw =>
    rw [hk'] at h
    simp [bind, hb kw _ hp] at h

/-- A call with an argument for the `*args` of a tool without `**kwargs` fails. -/
theorem C63_variadic_fails (W : World) (ctx : Ctx) (c : Call) (t : Nat) (hc : IsDict ctx) (ht : (c.name, .tool t) ∈ ctx)
    (hn : ((W.tools t).params.map (·.name)).Nodup) (p : Param) (hp : p ∈ (W.tools t).params) (hk : p.kind = .varPos)
    (hno : ∀ q ∈ (W.tools t).params, q.kind ≠ .varKw) (raw : Nat) (hm : (p.name, raw) ∈ c.args) :
    ∀ d, decode W ctx c ≠ .ok d := by
  intro d h
  unfold decode at h
  rw [(lookup_iff hc _ _).2 ht] at h
  simp only at h
  cases hk' : decodeArgs W (W.tools t).params c.args with
  | error e => rw [hk'] at h; cases h
  | ok kw =>
    obtain ⟨h1, -, -⟩ := decodeArgs_ok hn hk'
    have hmem : p.name ∈ kw.map Prod.fst := by rw [h1]; exact List.mem_map_of_mem (f := Prod.fst) hm
    obtain ⟨⟨n, v⟩, hx, e⟩ := List.mem_map.1 hmem
    have hfil : (n, v) ∈ kw.filter (fun x => !((W.tools t).params.any (fun q => q.named && q.name == x.1))) := by
      rw [List.mem_filter]
      refine ⟨hx, ?_⟩
      simp only [Bool.not_eq_true', List.any_eq_false, Bool.and_eq_true, beq_iff_eq, not_and]
      intro q hq hqn hqe
      have hqp : q = p := by
        have := find_param hn hq
        rw [hqe, show n = p.name from e, find_param hn hp] at this
        exact (Option.some.inj this).symm
      rw [hqp, Param.named, hk] at hqn
      simp at hqn
    have hfind : (W.tools t).params.find? (fun q => q.kind == .varKw) = none := by
      rw [List.find?_eq_none]
      intro q hq
      simpa using hno q hq
    rw [hk'] at h
    have hbind : bind (W.tools t).params kw = none := by
      unfold bind
      cases bindNamed kw (W.tools t).params with
      | none => rfl
      | some r =>
        simp only
        split
        · rename_i hnil; rw [hnil] at hfil; cases hfil
        · rw [hfind]
    simp [hbind] at h

/-- The argument for a `**kwargs` arrives inside of another dict. -/
theorem C63_kwargs_fails : decode W [(9, .tool 2)] ⟨5, 9, [(3, 4)]⟩ = .ok ⟨2, [(3, .kwargs [(3, 4)])], 5, 9⟩ := rfl

end Verif.ToolCalls
